import Verif.Model.SortOrder
import Verif.Props.Signs
import Mathlib.Data.Fin.Tuple.Sort

/-! # Ascending and descending sorts

`sort_eig_asc`, `sort_eig_desc`, `sort_svd_asc` and `sort_svd_desc`: the smallest or the largest value comes
first, the two are the reverse of each other, and sorting sorted data changes nothing. -/

set_option linter.unusedSectionVars false

namespace LinfaLinalg

variable {α : Type} [Zero α] [One α] [Add α] [Sub α] [Mul α] [Div α] [Neg α] [NdFloat α]

/-- No two values compare as equal. -/
def NoTies (v : Arr1 α) : Prop :=
  ∀ i < v.len, ∀ j < v.len, i ≠ j → ¬ (NdFloat.le (v.get i) (v.get j) = true ∧ NdFloat.le (v.get j) (v.get i) = true)

/-- Without ties, sorting in descending order is the reverse of sorting in ascending order. -/
theorem stableSortPerm_rev [LawfulLe α] {v : Arr1 α} (ht : NoTies v) {σ τ : Equiv.Perm (Fin v.len)}
    (hσ : StableSortPerm .smallest v.len v.get σ) (hτ : StableSortPerm .largest v.len v.get τ)
    (j : Fin v.len) : τ j = σ j.rev := by
  have h : StableSortPerm .largest v.len v.get (Fin.revPerm.trans σ) := by
    refine ⟨fun i j hij => ?_, fun i j hij hc => ?_⟩
    · have := hσ.sorted _ _ (Fin.rev_lt_rev.2 hij)
      simpa [InOrder] using this
    · have h1 := hσ.sorted _ _ (Fin.rev_lt_rev.2 hij)
      refine absurd ⟨?_, ?_⟩ (ht (σ i.rev) (Fin.is_lt _) (σ j.rev) (Fin.is_lt _) ?_)
      · intro hc'
        exact hij.ne (Fin.rev_injective (σ.injective (Fin.ext hc')))
      · simpa [InOrder] using hc
      · simpa [InOrder] using h1
  rw [hτ.unique h]
  rfl

/-- **C108**, pairs: without ties, `sort_eig_desc` returns what `sort_eig_asc` returns, in reverse. -/
theorem C108_eig_reverse [LawfulLe α] (vals : Arr1 α) (vecs : Arr2 α) {r : Nat} (hs : HasShape vecs r vals.len)
    (hnan : NaNFree vals) (ht : NoTies vals) :
    ∃ (v v' : Arr1 α) (q q' : Arr2 α), sortEigAsc vals vecs = .ok (v, q) ∧ sortEigDesc vals vecs = .ok (v', q') ∧
      v.len = vals.len ∧ v'.len = vals.len ∧ HasShape q r vals.len ∧ HasShape q' r vals.len ∧
      (∀ j < vals.len, v'.get j = v.get (vals.len - 1 - j)) ∧
      ∀ i < r, ∀ j < vals.len, q'.get i j = q.get i (vals.len - 1 - j) := by
  obtain ⟨v, q, σ, h1, h2, h3, h4, h5, h6⟩ := C33_sort_eig vals vecs r hs hnan .smallest
  obtain ⟨v', q', τ, h1', h2', h3', h4', h5', h6'⟩ := C33_sort_eig vals vecs r hs hnan .largest
  have hτ := stableSortPerm_rev ht h2 h2'
  have hr : ∀ (j : Nat) (hj : j < vals.len), ((Fin.rev ⟨j, hj⟩ : Fin vals.len) : Nat) = vals.len - 1 - j := by
    intro j hj; simp [Fin.rev]; omega
  refine ⟨v, v', q, q', h1, h1', h3, h3', h4, h4', fun j hj => ?_, fun i hi j hj => ?_⟩
  · rw [← hr j hj, h5, ← hτ]; exact h5' ⟨j, hj⟩
  · rw [← hr j hj, h6 i hi, ← hτ]; exact h6' i hi ⟨j, hj⟩

/-- **C108**, singular value decompositions: without ties, `sort_svd_desc` returns what `sort_svd_asc`
returns, in reverse. -/
theorem C108_svd_reverse [LawfulLe α] (u vt : Arr2 α) (s : Arr1 α) {n m : Nat} (hu : HasShape u n s.len)
    (hvt : HasShape vt s.len m) (hnan : NaNFree s) (ht : NoTies s) :
    ∃ (u1 u2 vt1 vt2 : Arr2 α) (s1 s2 : Arr1 α),
      sortSvdAsc (some u) s (some vt) = .ok (some u1, s1, some vt1) ∧
      sortSvdDesc (some u) s (some vt) = .ok (some u2, s2, some vt2) ∧
      s1.len = s.len ∧ s2.len = s.len ∧
      (∀ j < s.len, s2.get j = s1.get (s.len - 1 - j)) ∧
      (∀ i < n, ∀ j < s.len, u2.get i j = u1.get i (s.len - 1 - j)) ∧
      ∀ i < s.len, ∀ j < m, vt2.get i j = vt1.get (s.len - 1 - i) j := by
  have key : ∀ order, ∃ (u' vt' : Arr2 α) (s' : Arr1 α) (σ : Equiv.Perm (Fin s.len)),
      sortSvd (some u) s (some vt) order = .ok (some u', s', some vt') ∧ StableSortPerm order s.len s.get σ ∧
      s'.len = s.len ∧ (∀ j : Fin s.len, s'.get j = s.get (σ j)) ∧
      (∀ i < n, ∀ j : Fin s.len, u'.get i j = u.get i (σ j)) ∧
      ∀ (i : Fin s.len) (j : Nat), j < m → vt'.get i j = vt.get (σ i) j := by
    intro order
    obtain ⟨u', s', vt', σ, h1, h2, h3, h4, h5, h6⟩ := C40_sort_svd (some u) s (some vt)
      (fun a ha => by cases ha; exact hu.2) (fun a ha => by cases ha; exact hvt.1) hnan order
    cases u' with
    | none => exact h5.elim
    | some u' =>
    cases vt' with
    | none => exact h6.elim
    | some vt' =>
    exact ⟨u', vt', s', σ, h1, h2, h3, h4, fun i hi j => h5.2 i (hu.1.symm ▸ hi) j,
      fun i j hj => h6.2 i j (hvt.2.symm ▸ hj)⟩
  obtain ⟨u1, vt1, s1, σ, h1, h2, h3, h4, h5, h6⟩ := key .smallest
  obtain ⟨u2, vt2, s2, τ, h1', h2', h3', h4', h5', h6'⟩ := key .largest
  have hτ := stableSortPerm_rev ht h2 h2'
  have hr : ∀ (j : Nat) (hj : j < s.len), ((Fin.rev ⟨j, hj⟩ : Fin s.len) : Nat) = s.len - 1 - j := by
    intro j hj; simp [Fin.rev]; omega
  refine ⟨u1, u2, vt1, vt2, s1, s2, h1, h1', h3, h3', fun j hj => ?_, fun i hi j hj => ?_, fun i hi j hj => ?_⟩
  · rw [← hr j hj, h4, ← hτ]; exact h4' ⟨j, hj⟩
  · rw [← hr j hj, h5 i hi, ← hτ]; exact h5' i hi ⟨j, hj⟩
  · rw [← hr i hi, h6 _ j hj, ← hτ]; exact h6' ⟨i, hi⟩ j hj

/-- **C108**, values: in exact arithmetic `sort_eig_desc` of the values alone is the reverse of
`sort_eig_asc`, also with ties; the first value of the one is the smallest, that of the other the largest. -/
theorem C108_values_reverse (vals : Arr1 ℝ) :
    ∃ v v' : Arr1 ℝ, sortEigValsAsc vals = .ok v ∧ sortEigValsDesc vals = .ok v' ∧
      v.len = vals.len ∧ v'.len = vals.len ∧ (∀ j < vals.len, v'.get j = v.get (vals.len - 1 - j)) ∧
      ∀ j < vals.len, v.get 0 ≤ vals.get j ∧ vals.get j ≤ v'.get 0 := by
  obtain ⟨v, σ, h1, h2, h3, h4⟩ := C33_sort_eig_values vals (NaNFree.real vals) .smallest
  obtain ⟨v', τ, h1', h2', h3', h4'⟩ := C33_sort_eig_values vals (NaNFree.real vals) .largest
  have m1 : Monotone ((fun i : Fin vals.len => vals.get i) ∘ σ) := by
    intro i j hij
    exact stableSortPerm_ordered h2 i j hij
  have m2 : Monotone ((fun i : Fin vals.len => vals.get i) ∘ (Fin.revPerm.trans τ)) := by
    intro i j hij
    exact stableSortPerm_ordered h2' _ _ (Fin.rev_le_rev.2 hij)
  have e := Tuple.unique_monotone m1 m2
  have hr : ∀ (j : Nat) (hj : j < vals.len), ((Fin.rev ⟨j, hj⟩ : Fin vals.len) : Nat) = vals.len - 1 - j := by
    intro j hj; simp [Fin.rev]; omega
  refine ⟨v, v', h1, h1', h3, h3', fun j hj => ?_, fun j hj => ⟨?_, ?_⟩⟩
  · rw [← hr j hj, h4]
    have := congrFun e (Fin.rev ⟨j, hj⟩)
    simp only [Function.comp, Equiv.trans_apply, Fin.revPerm_apply, Fin.rev_rev] at this
    rw [this]
    exact h4' ⟨j, hj⟩
  · have h0 : 0 < vals.len := by omega
    have := m1 (Fin.mk_le_of_le_val (Nat.zero_le _) : (⟨0, h0⟩ : Fin vals.len) ≤ σ.symm ⟨j, hj⟩)
    simp only [Function.comp, Equiv.apply_symm_apply] at this
    rw [show v.get 0 = _ from h4 ⟨0, h0⟩]
    exact this
  · have h0 : 0 < vals.len := by omega
    have := stableSortPerm_ordered h2' ⟨0, h0⟩ (τ.symm ⟨j, hj⟩) (Fin.mk_le_of_le_val (Nat.zero_le _))
    simp only [Equiv.apply_symm_apply] at this
    rw [show v'.get 0 = _ from h4' ⟨0, h0⟩]
    exact this

/-- **C108**: sorting sorted pairs again in the same order changes nothing, also with ties. -/
theorem C108_idempotent [LawfulLe α] (vals : Arr1 α) (vecs : Arr2 α) {r : Nat} (hs : HasShape vecs r vals.len)
    (hnan : NaNFree vals) (order : Order) :
    ∃ (v v' : Arr1 α) (q q' : Arr2 α), sortEig vals vecs order = .ok (v, q) ∧ sortEig v q order = .ok (v', q') ∧
      v'.len = v.len ∧ HasShape q' r v.len ∧ (∀ j < v.len, v'.get j = v.get j) ∧
      ∀ i < r, ∀ j < v.len, q'.get i j = q.get i j := by
  obtain ⟨v, q, σ, h1, h2, h3, h4, h5, h6⟩ := C33_sort_eig vals vecs r hs hnan order
  have hnan' : NaNFree v := by
    intro i hi
    rw [show v.get i = _ from h5 ⟨i, h3 ▸ hi⟩]
    exact hnan _ (Fin.is_lt _)
  obtain ⟨v', q', τ, h1', h2', h3', h4', h5', h6'⟩ := C33_sort_eig v q r (h3.symm ▸ h4) hnan' order
  have hid : StableSortPerm order v.len v.get (Equiv.refl _) := by
    refine ⟨fun i j hij => ?_, fun i j hij _ => hij⟩
    have := h2.sorted (Fin.cast h3 i) (Fin.cast h3 j) hij
    rw [← h5, ← h5] at this
    exact this
  obtain rfl := h2'.unique hid
  exact ⟨v, v', q, q', h1, h1', h3', h4', fun j hj => h5' ⟨j, hj⟩, fun i hi j hj => h6' i hi ⟨j, hj⟩⟩

/-- The hypotheses of `C108_eig_reverse` are met: the values `2, 0, 1` with the unit vectors. -/
example : ∃ (v v' : Arr1 ℝ) (q q' : Arr2 ℝ),
    sortEigAsc (⟨3, fun i => if i = 0 then 2 else i - 1⟩ : Arr1 ℝ) (Arr2.eye 3 3) = .ok (v, q) ∧
    sortEigDesc (⟨3, fun i => if i = 0 then 2 else i - 1⟩ : Arr1 ℝ) (Arr2.eye 3 3) = .ok (v', q') ∧
    v'.get 0 = v.get 2 ∧ q'.get 1 0 = q.get 1 2 := by
  obtain ⟨v, v', q, q', h1, h2, -, -, -, -, h3, h4⟩ := C108_eig_reverse
    (⟨3, fun i => if i = 0 then 2 else i - 1⟩ : Arr1 ℝ) (Arr2.eye 3 3) (r := 3) ⟨rfl, rfl⟩ (NaNFree.real _)
    (by
      intro i hi j hj hij h
      simp only at hi hj
      have := le_antisymm (by simpa using h.1) (by simpa using h.2)
      interval_cases i <;> interval_cases j <;> simp_all <;> norm_num at this)
  exact ⟨v, v', q, q', h1, h2, h3 0 (by norm_num), h4 1 (by norm_num) 0 (by norm_num)⟩

end LinfaLinalg
