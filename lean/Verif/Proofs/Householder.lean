import Verif.Model.Householder
import Verif.Proofs.Cholesky

/-! # Householder routines, for every scalar type: success and shapes -/

set_option linter.unusedSectionVars false

namespace LinfaLinalg

variable {α : Type} [Zero α] [One α] [Add α] [Sub α] [Mul α] [Div α] [Neg α] [NdFloat α]

/-- One reflected entry. -/
def reflEntry (axis : Arr1 α) (bias : α) (rhs : Arr2 α) (i j : Nat) : α :=
  rhs.get i j + ((dotTo axis.len axis.get fun k => rhs.get k j) - bias) *
    NdFloat.ofRat (-2) * axis.get i

theorem reflectCols_eq (axis : Arr1 α) (bias : α) (rhs : Arr2 α) (h : axis.len = rhs.nr) :
    reflectCols axis bias rhs = .ok ⟨rhs.nr, rhs.nc, fun i j =>
      if i < rhs.nr ∧ j < rhs.nc then reflEntry axis bias rhs i j else rhs.get i j⟩ := by
  unfold reflectCols
  have := wp_forRange (lo := 0) (hi := rhs.nc) (s := rhs)
    (f := fun i (rhs : Arr2 α) => do
      let col ← rhs.colSlice 0 rhs.nr i
      let dot ← axis.dot col
      let factor := (dot - bias) * NdFloat.ofRat (-2)
      let col ← col.scaledAdd factor axis
      Except.ok (rhs.putCol 0 i col))
    (E := fun _ => False)
    (fun m r => r = ⟨rhs.nr, rhs.nc, fun i j =>
      if i < rhs.nr ∧ j < m then reflEntry axis bias rhs i j else rhs.get i j⟩)
    (Nat.zero_le _) (by refine Arr2.ext' (by rfl) (by rfl) ?_; intro i j; simp)
    (by
      intro k r _ hk hr
      subst hr
      rw [Arr2.colSlice_ok (Nat.zero_le _) (by exact le_rfl) (by exact hk)]
      simp only [ok_bind, Arr1.dot, Arr1.scaledAdd, h, Nat.sub_zero, if_true, wp_ok]
      refine Arr2.ext' (by rfl) (by rfl) ?_
      intro i j
      simp only [Arr2.putCol, Nat.zero_add, Nat.zero_le, true_and, Nat.sub_zero]
      by_cases hj : j = k
      · subst hj
        simp only [true_and, lt_irrefl, and_false, if_false, Nat.lt_succ_self, and_true]
        by_cases hi : i < rhs.nr
        · simp [hi, reflEntry, h]
        · simp [hi]
      · have : j < k + 1 ↔ j < k := by omega
        simp [hj, this])
  obtain ⟨r, hr, rfl⟩ := succeeds_iff.1 this
  exact hr

theorem reflectionAxisMut_ok (col : Arr1 α) (h : 0 < col.len) :
    ∃ w o, reflectionAxisMut col = .ok (w, o) ∧ w.len = col.len := by
  unfold reflectionAxisMut
  simp only [Arr1.dot, if_true, ok_bind]
  rw [Arr1.idx_ok h]
  simp only [ok_bind]
  rw [Arr1.idxSet_ok h]
  simp only [ok_bind]
  split
  · exact ⟨_, _, rfl, rfl⟩
  · exact ⟨_, _, rfl, rfl⟩

theorem clearColumn_ok (a : Arr2 α) (icol shift : Nat) (hc : icol < a.nc)
    (hr : icol + shift < a.nr) :
    ∃ b d, clearColumn a icol shift = .ok (b, d) ∧ b.nr = a.nr ∧ b.nc = a.nc := by
  unfold clearColumn
  rw [Arr2.colSlice_ok hr.le le_rfl hc]
  simp only [ok_bind]
  obtain ⟨w, o, hw, hl⟩ := reflectionAxisMut_ok
    (⟨a.nr - (icol + shift), fun i => a.get (icol + shift + i) icol⟩ : Arr1 α) (by simp; omega)
  rw [hw]
  simp only [ok_bind]
  cases o with
  | none => exact ⟨_, _, rfl, rfl, rfl⟩
  | some ν =>
    simp only
    rw [Arr2.slice_ok (by simpa using hr.le) le_rfl (by exact hc) le_rfl]
    simp only [ok_bind]
    rw [reflectCols_eq _ _ _ (by simpa using hl)]
    exact ⟨_, _, rfl, rfl, rfl⟩

theorem clearRow_ok (a : Arr2 α) (irow shift : Nat) (hr : irow < a.nr)
    (hc : irow + shift < a.nc) :
    ∃ b d, clearRow a irow shift = .ok (b, d) ∧ b.nr = a.nr ∧ b.nc = a.nc := by
  obtain ⟨b, d, h, h1, h2⟩ := clearColumn_ok a.t irow shift hr hc
  refine ⟨b.t, d, ?_, h2, h1⟩
  unfold clearRow
  rw [h]
  rfl

theorem assembleQ_ok (m : Arr2 α) (shift : Nat) (diagFn : Nat → M α)
    (hs : shift ≤ min m.nr m.nc) (hd : ∀ i, i < min m.nr m.nc - shift → ∃ d, diagFn i = .ok d) :
    ∃ q, assembleQ m shift diagFn = .ok q ∧ q.nr = m.nr ∧ q.nc = min m.nr m.nc := by
  unfold assembleQ
  simp only
  rw [if_neg (by omega)]
  refine succeeds_iff.1 (wp_forRev (fun _ (q : Arr2 α) => q.nr = m.nr ∧ q.nc = min m.nr m.nc)
    (Nat.zero_le _) ⟨rfl, rfl⟩ ?_)
  intro i q _ hi ⟨h1, h2⟩
  obtain ⟨d, hd⟩ := hd i hi
  rw [Arr2.colSlice_ok (by omega) le_rfl (by omega)]
  simp only [ok_bind]
  rw [Arr2.slice_ok (by omega) le_rfl (by omega) le_rfl]
  simp only [ok_bind]
  rw [reflectCols_eq _ _ _ (by simp [h1]), hd]
  exact ⟨h1, h2⟩

end LinfaLinalg
