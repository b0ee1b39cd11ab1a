import Verif.Proofs.Sort

/-! # C33, C40: sorting of decompositions -/

set_option linter.unusedSectionVars false

namespace LinfaLinalg

open Matrix

variable {α : Type} [Zero α] [One α] [Add α] [Sub α] [Mul α] [Div α] [Neg α] [NdFloat α]

/-- **C33**: on NaN-free values `sort_eig` of a pair returns values and vectors re-ordered by one and
the same permutation, the one of a stable sort in the requested order. -/
theorem C33_sort_eig [LawfulLe α] (vals : Arr1 α) (vecs : Arr2 α) (r : Nat)
    (hs : HasShape vecs r vals.len) (hnan : NaNFree vals) (order : Order) :
    ∃ (outVals : Arr1 α) (outVecs : Arr2 α) (σ : Equiv.Perm (Fin vals.len)),
      sortEig vals vecs order = .ok (outVals, outVecs) ∧
      StableSortPerm order vals.len vals.get σ ∧
      outVals.len = vals.len ∧ HasShape outVecs r vals.len ∧
      (∀ j : Fin vals.len, outVals.get j = vals.get (σ j)) ∧
      ∀ i < r, ∀ j : Fin vals.len, outVecs.get i j = vecs.get i (σ j) := by
  obtain ⟨l, σ, hl, hσ, hlen, hget⟩ := sortBy_enumerate vals hnan order
  obtain ⟨out, ho, hos, hog⟩ := succeeds_iff.1 (permuteCols_ok vecs _ hs.2 l hlen σ vals.get hget)
  refine ⟨vals.assignSnd l, out, σ, ?_, hσ, rfl, ⟨hos.1.trans hs.1, hos.2⟩, ?_, ?_⟩
  · unfold sortEig
    rw [hl, ok_bind, ho, ok_bind]
  · intro j
    simp only [Arr1.assignSnd, hget j]
  · intro i hi j
    exact hog i (by rw [hs.1]; exact hi) j

/-- **C33**, values alone: the same values as `sort_eig` of the pair. -/
theorem C33_sort_eig_values [LawfulLe α] (vals : Arr1 α) (hnan : NaNFree vals) (order : Order) :
    ∃ (out : Arr1 α) (σ : Equiv.Perm (Fin vals.len)), sortEigVals vals order = .ok out ∧
      StableSortPerm order vals.len vals.get σ ∧ out.len = vals.len ∧
      ∀ j : Fin vals.len, out.get j = vals.get (σ j) := by
  obtain ⟨l, σ, hl, hσ, hlen, hget⟩ := sortBy_enumerate vals hnan order
  have h := sortBy_toList vals order
  rw [hl] at h
  cases hb : sortBy (fun x : α => x) order vals.toList with
  | error e => rw [hb] at h; exact h.elim
  | ok l' =>
    rw [hb, relM_ok] at h
    refine ⟨⟨vals.len, fun i => l'.getD i (vals.get i)⟩, σ,
      by unfold sortEigVals; rw [hb, ok_bind], hσ, rfl, fun j => ?_⟩
    simp [h, List.getD_eq_getElem?_getD, hget j]

/-- **C33**, panics: `sort_eig` of two or more values containing a NaN panics, and on
a valid shape it fails in no other case. -/
theorem C33_sort_eig_panics [LawfulLe α] (vals : Arr1 α) (vecs : Arr2 α)
    (hs : vecs.nc = vals.len) (h2 : 2 ≤ vals.len) (order : Order) :
    (¬ NaNFree vals ↔ sortEig vals vecs order = .error .panic) ∧
    (¬ NaNFree vals ↔ sortEigVals vals order = .error .panic) := by
  constructor
  · constructor
    · intro h
      unfold sortEig
      rw [sortBy_nan vals h h2 order, error_bind]
    · intro h hn
      obtain ⟨_, _, _, h', _⟩ := C33_sort_eig vals vecs vecs.nr ⟨rfl, hs⟩ hn order
      rw [h] at h'; cases h'
  · constructor
    · intro h
      have hr := sortBy_toList vals order
      rw [sortBy_nan vals h h2 order] at hr
      unfold sortEigVals
      cases hb : sortBy (fun x : α => x) order vals.toList with
      | error e => rw [hb, relM_error] at hr; rw [hr, error_bind]
      | ok l' => rw [hb] at hr; exact hr.elim
    · intro h hn
      obtain ⟨_, _, h', _⟩ := C33_sort_eig_values vals hn order
      rw [h] at h'; cases h'

/-- **C33**, consequence in exact arithmetic: eigenpairs stay eigenpairs, orthonormal columns stay
orthonormal, and the values are monotone. -/
theorem C33_sort_eig_valid (n : Nat) (A : Matrix (Fin n) (Fin n) ℝ) (vals : Arr1 ℝ) (vecs : Arr2 ℝ)
    (hv : vals.len = n) (hs : HasShape vecs n n)
    (hA : A * toMat n n vecs = toMat n n vecs * diagonal (toVec n vals))
    (hQ : (toMat n n vecs)ᵀ * toMat n n vecs = 1) (order : Order) :
    ∃ outVals outVecs, sortEig vals vecs order = .ok (outVals, outVecs) ∧
      outVals.len = n ∧ HasShape outVecs n n ∧
      A * toMat n n outVecs = toMat n n outVecs * diagonal (toVec n outVals) ∧
      (toMat n n outVecs)ᵀ * toMat n n outVecs = 1 ∧
      (match order with
        | .smallest => Monotone (toVec n outVals)
        | .largest => Antitone (toVec n outVals)) := by
  subst hv
  obtain ⟨ov, oq, σ, h, hσ, hl, hsh, hov, hoq⟩ :=
    C33_sort_eig vals vecs vals.len hs (NaNFree.real vals) order
  have e1 : toMat _ _ oq = (toMat vals.len vals.len vecs).submatrix id σ := by
    ext i j; simpa using hoq i i.2 j
  have e2 : toVec _ ov = toVec vals.len vals ∘ σ := by
    ext j; simpa using hov j
  refine ⟨ov, oq, h, hl, hsh, ?_, ?_, ?_⟩
  · rw [e1, e2]
    ext i j
    have := congrFun (congrFun hA i) (σ j)
    rw [mul_diagonal] at this ⊢
    simpa [mul_apply] using this
  · rw [e1]
    ext i j
    have := congrFun (congrFun hQ (σ i)) (σ j)
    simp only [mul_apply, transpose_apply, submatrix_apply, id] at this ⊢
    rw [this]
    simp [one_apply]
  · have hmono : ∀ i j : Fin vals.len, i ≤ j → InOrder order (ov.get i) (ov.get j) := by
      intro i j hij
      rcases eq_or_lt_of_le hij with rfl | hlt
      · cases order <;> simp [InOrder]
      · rw [hov i, hov j]; exact hσ.sorted i j hlt
    cases order with
    | largest => intro i j hij; simpa [InOrder] using hmono i j hij
    | smallest => intro i j hij; simpa [InOrder] using hmono i j hij

/-- The hypotheses are met by a decomposition with a tie: `diag(1, 0, 1)`. -/
example : ∃ (A : Matrix (Fin 3) (Fin 3) ℝ) (vals : Arr1 ℝ) (vecs : Arr2 ℝ),
    vals.len = 3 ∧ HasShape vecs 3 3 ∧
    A * toMat 3 3 vecs = toMat 3 3 vecs * diagonal (toVec 3 vals) ∧
    (toMat 3 3 vecs)ᵀ * toMat 3 3 vecs = 1 ∧ toVec 3 vals = ![1, 0, 1] := by
  refine ⟨diagonal ![1, 0, 1], ⟨3, fun i => if i = 1 then 0 else 1⟩, Arr2.eye 3 3, rfl, ⟨rfl, rfl⟩,
    ?_, ?_, ?_⟩
  · have e : toMat 3 3 (Arr2.eye 3 3 : Arr2 ℝ) = 1 := by
      ext i j; simp [Arr2.eye, one_apply, Fin.ext_iff]
    rw [e, Matrix.mul_one, Matrix.one_mul]
    congr 1
    ext i; fin_cases i <;> simp
  · have e : toMat 3 3 (Arr2.eye 3 3 : Arr2 ℝ) = 1 := by
      ext i j; simp [Arr2.eye, one_apply, Fin.ext_iff]
    rw [e]; simp
  · ext i; fin_cases i <;> simp

/-- What `sort_svd` does to one optional factor. -/
def OptRel {β : Type} (R : β → β → Prop) : Option β → Option β → Prop
  | none, none => True
  | some a, some b => R a b
  | _, _ => False

/-- **C40**: on NaN-free singular values `sort_svd` re-orders the values, the columns of `U` and the
rows of `Vt` by the permutation of a stable sort; absent factors stay absent. -/
theorem C40_sort_svd [LawfulLe α] (u : Option (Arr2 α)) (s : Arr1 α) (vt : Option (Arr2 α))
    (hu : ∀ a ∈ u, a.nc = s.len) (hvt : ∀ a ∈ vt, a.nr = s.len) (hnan : NaNFree s)
    (order : Order) :
    ∃ (u' : Option (Arr2 α)) (s' : Arr1 α) (vt' : Option (Arr2 α)) (σ : Equiv.Perm (Fin s.len)),
      sortSvd u s vt order = .ok (u', s', vt') ∧ StableSortPerm order s.len s.get σ ∧
      s'.len = s.len ∧ (∀ j : Fin s.len, s'.get j = s.get (σ j)) ∧
      OptRel (fun a a' => HasShape a' a.nr a.nc ∧
        ∀ i < a.nr, ∀ j : Fin s.len, a'.get i j = a.get i (σ j)) u u' ∧
      OptRel (fun a a' => HasShape a' a.nr a.nc ∧
        ∀ (i : Fin s.len) j, j < a.nc → a'.get i j = a.get (σ i) j) vt vt' := by
  obtain ⟨l, σ, hl, hσ, hlen, hget⟩ := sortBy_enumerate s hnan order
  have h1 : ∃ u', permuteColsOpt l u = .ok u' ∧ OptRel (fun a a' => HasShape a' a.nr a.nc ∧
      ∀ i < a.nr, ∀ j : Fin s.len, a'.get i j = a.get i (σ j)) u u' := by
    cases u with
    | none => exact ⟨none, rfl, trivial⟩
    | some a =>
      have ha := hu a rfl
      obtain ⟨out, ho, hos, hog⟩ := succeeds_iff.1 (permuteCols_ok a _ ha l hlen σ s.get hget)
      exact ⟨some out, by simp [permuteColsOpt, ho], ⟨hos.1, hos.2.trans ha.symm⟩, hog⟩
  have h2 : ∃ vt', permuteRowsOpt l vt = .ok vt' ∧ OptRel (fun a a' => HasShape a' a.nr a.nc ∧
      ∀ (i : Fin s.len) j, j < a.nc → a'.get i j = a.get (σ i) j) vt vt' := by
    cases vt with
    | none => exact ⟨none, rfl, trivial⟩
    | some a =>
      have ha := hvt a rfl
      obtain ⟨out, ho, hos, hog⟩ := succeeds_iff.1 (permuteCols_ok a.t _ ha l hlen σ s.get hget)
      exact ⟨some out.t, by simp [permuteRowsOpt, ho], ⟨hos.2.trans ha.symm, hos.1⟩,
        fun i j hj => hog j hj i⟩
  obtain ⟨u', hu', hur⟩ := h1
  obtain ⟨vt', hvt', hvr⟩ := h2
  refine ⟨u', s.assignSnd l, vt', σ, ?_, hσ, rfl, ?_, hur, hvr⟩
  · unfold sortSvd
    rw [hl, ok_bind, hu', ok_bind, hvt', ok_bind]
  · intro j
    simp only [Arr1.assignSnd, hget j]

/-- **C40**, consequence in exact arithmetic: the product `U * diag(S) * Vt` is unchanged, the factors
stay semi-orthogonal, and the values are monotone. -/
theorem C40_sort_svd_product (r c d : Nat) (u : Arr2 ℝ) (s : Arr1 ℝ) (vt : Arr2 ℝ)
    (hu : HasShape u r d) (hs : s.len = d) (hvt : HasShape vt d c) (order : Order) :
    ∃ u' s' vt', sortSvd (some u) s (some vt) order = .ok (some u', s', some vt') ∧
      HasShape u' r d ∧ s'.len = d ∧ HasShape vt' d c ∧
      toMat r d u' * diagonal (toVec d s') * toMat d c vt' =
        toMat r d u * diagonal (toVec d s) * toMat d c vt ∧
      ((toMat r d u)ᵀ * toMat r d u = 1 → (toMat r d u')ᵀ * toMat r d u' = 1) ∧
      (toMat d c vt * (toMat d c vt)ᵀ = 1 → toMat d c vt' * (toMat d c vt')ᵀ = 1) ∧
      (match order with
        | .smallest => Monotone (toVec d s')
        | .largest => Antitone (toVec d s')) := by
  subst hs
  obtain ⟨u', s', vt', σ, h, hσ, hl, hsv, hur, hvr⟩ := C40_sort_svd (some u) s (some vt)
    (fun a ha => by cases ha; exact hu.2) (fun a ha => by cases ha; exact hvt.1)
    (NaNFree.real s) order
  cases u' with
  | none => exact hur.elim
  | some u' =>
  cases vt' with
  | none => exact hvr.elim
  | some vt' =>
  have e1 : toMat r _ u' = (toMat r s.len u).submatrix id σ := by
    ext i j; simpa using hur.2 i (by rw [hu.1]; exact i.2) j
  have e2 : toVec _ s' = toVec s.len s ∘ σ := by
    ext j; simpa using hsv j
  have e3 : toMat _ c vt' = (toMat s.len c vt).submatrix σ id := by
    ext i j; simpa using hvr.2 i j (by rw [hvt.2]; exact j.2)
  refine ⟨u', s', vt', h, ⟨hur.1.1.trans hu.1, hur.1.2.trans hu.2⟩, hl,
    ⟨hvr.1.1.trans hvt.1, hvr.1.2.trans hvt.2⟩, ?_, ?_, ?_, ?_⟩
  · rw [e1, e2, e3]
    ext i j
    rw [mul_apply, mul_apply]
    simp only [mul_diagonal, submatrix_apply, id, Function.comp]
    exact Equiv.sum_comp σ fun k => toMat r s.len u i k * toVec s.len s k * toMat s.len c vt k j
  · intro hU
    rw [e1]
    ext i j
    have := congrFun (congrFun hU (σ i)) (σ j)
    simp only [mul_apply, transpose_apply, submatrix_apply, id] at this ⊢
    rw [this]
    simp [one_apply]
  · intro hV
    rw [e3]
    ext i j
    have := congrFun (congrFun hV (σ i)) (σ j)
    simp only [mul_apply, transpose_apply, submatrix_apply, id] at this ⊢
    rw [this]
    simp [one_apply]
  · have hmono : ∀ i j : Fin s.len, i ≤ j → InOrder order (s'.get i) (s'.get j) := by
      intro i j hij
      rcases eq_or_lt_of_le hij with rfl | hlt
      · cases order <;> simp [InOrder]
      · rw [hsv i, hsv j]; exact hσ.sorted i j hlt
    cases order with
    | largest => intro i j hij; simpa [InOrder] using hmono i j hij
    | smallest => intro i j hij; simpa [InOrder] using hmono i j hij

/-- **C40**, panics: exactly when two or more values contain a NaN. -/
theorem C40_sort_svd_panics [LawfulLe α] (u : Option (Arr2 α)) (s : Arr1 α) (vt : Option (Arr2 α))
    (hu : ∀ a ∈ u, a.nc = s.len) (hvt : ∀ a ∈ vt, a.nr = s.len) (h2 : 2 ≤ s.len) (order : Order) :
    ¬ NaNFree s ↔ sortSvd u s vt order = .error .panic := by
  constructor
  · intro h
    unfold sortSvd
    rw [sortBy_nan s h h2 order, error_bind]
  · intro h hn
    obtain ⟨_, _, _, _, h', _⟩ := C40_sort_svd u s vt hu hvt hn order
    rw [h] at h'; cases h'

/-- The shape hypotheses are met by a 3 × 2 decomposition. -/
example : HasShape (Arr2.eye 3 2 : Arr2 ℝ) 3 2 ∧ (⟨2, fun i => i⟩ : Arr1 ℝ).len = 2 ∧
    HasShape (Arr2.eye 2 2 : Arr2 ℝ) 2 2 := ⟨⟨rfl, rfl⟩, rfl, ⟨rfl, rfl⟩⟩

end LinfaLinalg
