import Verif.Props.LobpcgReal

/-! # C51, C52: the iterator of `TruncatedEig` -/

set_option linter.unusedSectionVars false

namespace LinfaLinalg

variable {α ρ : Type} [Zero α] [One α] [Add α] [Sub α] [Mul α] [Div α] [Neg α] [NdFloat α]

/-- `m` successive calls of `next()`: the items returned, in order, and the iterator afterwards. -/
def callNext (eig : EigSolver α) (R : RandomSource α ρ) :
    Nat → TruncatedEigIterator α ρ → M (List (Option (Arr1 α × Arr2 α)) × TruncatedEigIterator α ρ)
  | 0, it => .ok ([], it)
  | m + 1, it => do
    let (item, it) ← it.next eig R
    let (items, it) ← callNext eig R m it
    .ok (item :: items, it)

/-- The columns of a matrix. -/
def columnList (a : Arr2 α) : List (List α) :=
  (List.range a.nc).map fun j => (List.range a.nr).map fun i => a.get i j

/-- The columns of the constraint matrix, if there is one. -/
def constraintColumns (t : TruncatedEig α ρ) : List (List α) :=
  match t.constraints with
  | none => []
  | some c => columnList c

/-- The blocks among the items. -/
def blocks (items : List (Option (Arr1 α × Arr2 α))) : List (Arr1 α × Arr2 α) := items.filterMap id

theorem stackCols_columns {c v w : Arr2 α} (h : stackCols c v = .ok w) :
    columnList w = columnList c ++ columnList v := by
  unfold stackCols at h
  split_ifs at h with h1 h2 h3
  · injection h with h
    subst h
    simp only [columnList, h3]
    simp
  · injection h with h
    subst h
    have hn : ∀ j < v.nc, c.nr = v.nr := by
      intro j hj
      by_contra hne
      exact h2 ⟨h3, by omega, hne⟩
    simp only [columnList]
    rw [List.range_add, List.map_append]
    congr 1
    · refine List.map_congr_left fun j hj => ?_
      rw [List.mem_range] at hj
      simp [hj]
    · rw [List.map_map]
      refine List.map_congr_left fun j hj => ?_
      rw [List.mem_range] at hj
      rw [hn j hj]
      simp

/-- What an item returned by `next()` says about the iterator before and after. -/
def NextSpec (eig : EigSolver α) (R : RandomSource α ρ) (it it' : TruncatedEigIterator α ρ) :
    Option (Arr1 α × Arr2 α) → Prop
  | none => it'.remaining = it.remaining ∧ it'.eig.constraints = it.eig.constraints
  | some (vals, vecs) => it.remaining ≠ 0 ∧
      vals.len = min it.stepSize it.remaining ∧
      (it.stepSize ≠ 0 → HasShape vecs it.eig.problem.nr (min it.stepSize it.remaining)) ∧
      it'.remaining = it.remaining - min it.stepSize it.remaining ∧
      constraintColumns it'.eig = constraintColumns it.eig ++ columnList vecs ∧
      ∃ res t b, it.eig.decompose eig R (min it.stepSize it.remaining) = .ok (res, t) ∧
        Returned res b ∧ b.eigvals = vals ∧ b.eigvecs = vecs ∧
        ∀ r ∈ b.rnorm, NdFloat.lt (NdFloat.ofRat (1 / 10)) r = false

/-- What one call of `next()` does. -/
theorem next_inv [LawfulLe α] [LawfulLt α] {eig : EigSolver α} {R : RandomSource α ρ}
    {it it' : TruncatedEigIterator α ρ} {item : Option (Arr1 α × Arr2 α)}
    (h : it.next eig R = .ok (item, it')) :
    it'.stepSize = it.stepSize ∧ it'.eig.problem = it.eig.problem ∧ it'.eig.order = it.eig.order ∧
    it'.eig.preconditioner = it.eig.preconditioner ∧ it'.eig.precision = it.eig.precision ∧
    it'.eig.maxiter = it.eig.maxiter ∧ NextSpec eig R it it' item := by
  unfold TruncatedEigIterator.next at h
  split_ifs at h with h0
  · injection h with h
    simp only [Prod.mk.injEq] at h
    obtain ⟨rfl, rfl⟩ := h
    exact ⟨rfl, rfl, rfl, rfl, rfl, rfl, rfl, rfl⟩
  simp only [bind_eq_ok] at h
  obtain ⟨⟨res, t⟩, h1, h⟩ := h
  obtain ⟨rng', ht⟩ : ∃ rng', t = { it.eig with rng := rng' } := by
    unfold TruncatedEig.decompose at h1
    split_ifs at h1
    · injection h1 with h1
      simp only [Prod.mk.injEq] at h1
      obtain ⟨-, rfl⟩ := h1
      exact ⟨_, rfl⟩
    · simp only [bind_eq_ok] at h1
      obtain ⟨⟨_, _⟩, -, h2⟩ := h1
      simp only at h2
      injection h2 with h2
      simp only [Prod.mk.injEq] at h2
      obtain ⟨-, rfl⟩ := h2
      exact ⟨_, rfl⟩
  subst ht
  simp only at h
  split at h
  · injection h with h
    simp only [Prod.mk.injEq] at h
    obtain ⟨rfl, rfl⟩ := h
    exact ⟨rfl, rfl, rfl, rfl, rfl, rfl, rfl, rfl⟩
  next l hl =>
    split_ifs at h with hany
    · injection h with h
      simp only [Prod.mk.injEq] at h
      obtain ⟨rfl, rfl⟩ := h
      exact ⟨rfl, rfl, rfl, rfl, rfl, rfl, rfl, rfl⟩
    simp only [bind_eq_ok] at h
    obtain ⟨c, hc, h⟩ := h
    injection h with h
    simp only [Prod.mk.injEq] at h
    obtain ⟨rfl, rfl⟩ := h
    have hret : Returned res l := by
      rcases res with ⟨e, o⟩ | b
      · simp only [LobpcgResult.result] at hl
        exact Or.inr ⟨e, by rw [hl]⟩
      · simp only [LobpcgResult.result, Option.some.injEq] at hl
        exact Or.inl (by rw [hl])
    have hsh : l.eigvals.len = min it.stepSize it.remaining ∧
        (it.stepSize ≠ 0 → HasShape l.eigvecs it.eig.problem.nr (min it.stepSize it.remaining)) := by
      unfold TruncatedEig.decompose at h1
      split_ifs at h1 with hz
      · injection h1 with h1
        simp only [Prod.mk.injEq] at h1
        obtain ⟨rfl, -⟩ := h1
        simp only [LobpcgResult.result, Option.some.injEq] at hl
        subst hl
        refine ⟨hz.symm, fun hs => ?_⟩
        omega
      · simp only [bind_eq_ok] at h1
        obtain ⟨⟨res', hist⟩, h1, h2⟩ := h1
        simp only at h2
        injection h2 with h2
        simp only [Prod.mk.injEq] at h2
        obtain ⟨rfl, -⟩ := h2
        obtain ⟨e1, e2, e3, -⟩ := C48_shapes _ _ _ _ _ _ h1 l hret
        exact ⟨e1, fun _ => ⟨e2, e3⟩⟩
    refine ⟨rfl, rfl, rfl, rfl, rfl, rfl, h0, hsh.1, hsh.2, rfl, ?_, res, _, l, h1, hret, rfl, rfl, ?_⟩
    · unfold constraintColumns
      simp only
      cases hcc : it.eig.constraints with
      | none =>
        rw [hcc] at hc
        simp only at hc ⊢
        injection hc with hc
        rw [hc, List.nil_append]
      | some c0 =>
        rw [hcc] at hc
        simp only at hc ⊢
        exact stackCols_columns hc
    · intro r hr
      simp only [List.any_eq_true, not_exists, not_and] at hany
      exact Bool.eq_false_iff.2 (hany r hr)

/-- **C51**: after any number of calls of `next()` on an iterator, whatever they returned, the number of
eigenvalues returned so far plus `remaining` is what `remaining` was, the constraints are the old ones
followed by all eigenvectors returned, in order, and all else except the random number generator is as
it was. For every eigensolver for the small problems, and every scalar type that is lawfully ordered
(the reals, and IEEE-like floats). -/
theorem C51_history [LawfulLe α] [LawfulLt α] (eig : EigSolver α) (R : RandomSource α ρ)
    (it it' : TruncatedEigIterator α ρ) (m : Nat) (items : List (Option (Arr1 α × Arr2 α)))
    (h : callNext eig R m it = .ok (items, it')) :
    items.length = m ∧
    ((blocks items).map fun b => b.1.len).sum + it'.remaining = it.remaining ∧
    constraintColumns it'.eig = constraintColumns it.eig ++ (blocks items).flatMap (fun b =>
      columnList b.2) ∧
    it'.stepSize = it.stepSize ∧ it'.eig.problem = it.eig.problem ∧
    it'.eig.order = it.eig.order ∧ it'.eig.precision = it.eig.precision ∧
    it'.eig.preconditioner = it.eig.preconditioner ∧ it'.eig.maxiter = it.eig.maxiter := by
  induction m generalizing it items with
  | zero =>
    unfold callNext at h
    injection h with h
    simp only [Prod.mk.injEq] at h
    obtain ⟨rfl, rfl⟩ := h
    simp [blocks]
  | succ m ih =>
    unfold callNext at h
    simp only [bind_eq_ok] at h
    obtain ⟨⟨item, it1⟩, h1, ⟨items', it2⟩, h2, h3⟩ := h
    injection h3 with h3
    simp only [Prod.mk.injEq] at h3
    obtain ⟨rfl, rfl⟩ := h3
    obtain ⟨e1, e2, e3, e4, e5, e6, e7⟩ := next_inv h1
    obtain ⟨i1, i2, i3, i4, i5, i6, i7, i8, i9⟩ := ih it1 items' h2
    refine ⟨by simp [i1], ?_, ?_, i4.trans e1, i5.trans e2, i6.trans e3, i7.trans e5, i8.trans e4,
      i9.trans e6⟩
    · rcases item with _ | ⟨vals, vecs⟩
      · simpa [blocks, e7.1] using i2
      · obtain ⟨f1, f2, -, f4, -⟩ := e7
        simp only [blocks, List.filterMap_cons, id, List.map_cons, List.sum_cons] at i2 ⊢
        rw [f2]
        omega
    · rcases item with _ | ⟨vals, vecs⟩
      · rw [i3]
        unfold constraintColumns
        rw [e7.2]
        simp [blocks]
      · obtain ⟨-, -, -, -, f5, -⟩ := e7
        rw [i3, f5]
        simp [blocks]

/-- **C51**, from the start: with a step size of at least one, `into_iter_step_size` yields at most `n`
eigenvalues altogether. With a step size of zero it panics. -/
theorem C51_at_most_n [LawfulLe α] [LawfulLt α] (eig : EigSolver α) (R : RandomSource α ρ)
    (t : TruncatedEig α ρ) (s : Nat) :
    (s = 0 → t.intoIterStepSize s = .error .panic) ∧
    (1 ≤ s → ∃ it, t.intoIterStepSize s = .ok it ∧
      ∀ m items it', callNext eig R m it = .ok (items, it') →
        ((blocks items).map fun b => b.1.len).sum + it'.remaining = t.problem.nr ∧
        ((blocks items).map fun b => b.1.len).sum ≤ t.problem.nr ∧
        constraintColumns it'.eig =
          constraintColumns t ++ (blocks items).flatMap fun b => columnList b.2) := by
  refine ⟨fun h => by subst h; rfl, fun h => ⟨_, by unfold TruncatedEig.intoIterStepSize; rw [if_neg (by omega)], ?_⟩⟩
  intro m items it' hrun
  obtain ⟨-, h1, h2, -⟩ := C51_history eig R _ it' m items hrun
  simp only at h1 h2
  exact ⟨h1, by omega, h2⟩

/-- **C51**, size of the blocks: an item that is not `None` has `min(step, remaining)` values, as many
vectors of length `n`, and `remaining` goes down by that number. -/
theorem C51_block [LawfulLe α] [LawfulLt α] (eig : EigSolver α) (R : RandomSource α ρ)
    (it it' : TruncatedEigIterator α ρ) (vals : Arr1 α) (vecs : Arr2 α) (hs : 1 ≤ it.stepSize)
    (h : it.next eig R = .ok (some (vals, vecs), it')) :
    vals.len = min it.stepSize it.remaining ∧ 1 ≤ vals.len ∧
      HasShape vecs it.eig.problem.nr vals.len ∧ it'.remaining + vals.len = it.remaining := by
  obtain ⟨-, -, -, -, -, -, h1, h2, h3, h4, -⟩ := next_inv h
  have h3' := h3 (by omega)
  rw [← h2] at h3'
  exact ⟨h2, by omega, h3', by omega⟩

/-- **C51**, the end: once `remaining` is zero, every further call returns `None` and changes nothing. -/
theorem C51_exhausted (eig : EigSolver α) (R : RandomSource α ρ) (it : TruncatedEigIterator α ρ)
    (h : it.remaining = 0) (m : Nat) : callNext eig R m it = .ok (List.replicate m none, it) := by
  induction m with
  | zero => rfl
  | succ m ih =>
    unfold callNext TruncatedEigIterator.next
    rw [if_pos h, ok_bind]
    simp only
    rw [ih]
    rfl

/-- **C52**: the residual norms of a block that is returned are not above `0.1`, and a call that returns
`None` leaves the constraints and `remaining` as they were. For every scalar type that is lawfully
ordered; note that a NaN is "not above `0.1`". -/
theorem C52_residuals [LawfulLe α] [LawfulLt α] (eig : EigSolver α) (R : RandomSource α ρ)
    (it it' : TruncatedEigIterator α ρ) (item : Option (Arr1 α × Arr2 α))
    (h : it.next eig R = .ok (item, it')) :
    (∀ vals vecs, item = some (vals, vecs) → ∃ res t b,
      it.eig.decompose eig R (min it.stepSize it.remaining) = .ok (res, t) ∧ Returned res b ∧
      b.eigvals = vals ∧ b.eigvecs = vecs ∧
      ∀ r ∈ b.rnorm, NdFloat.lt (NdFloat.ofRat (1 / 10)) r = false) ∧
    (item = none → it'.remaining = it.remaining ∧ it'.eig.constraints = it.eig.constraints) := by
  obtain ⟨-, -, -, -, -, -, h1⟩ := next_inv h
  constructor
  · rintro vals vecs rfl
    exact h1.2.2.2.2.2
  · rintro rfl
    exact h1

/-- **C52** in exact arithmetic: for every pair in a block that is returned, `‖A v - λ v‖ ≤ 0.1`. -/
theorem C52_residuals_real {n : Nat} (eig : EigSolver ℝ) (R : RandomSource ℝ ρ)
    (it it' : TruncatedEigIterator ℝ ρ) (ht : HasShape it.eig.problem n n) (hs : 1 ≤ it.stepSize)
    (vals : Arr1 ℝ) (vecs : Arr2 ℝ) (h : it.next eig R = .ok (some (vals, vecs), it'))
    (j : Fin vals.len) :
    Real.sqrt (∑ i : Fin n, ((toMat n n it.eig.problem).mulVec (fun i => vecs.get i j) i -
      vals.get j * vecs.get i j) ^ 2) ≤ 1 / 10 := by
  obtain ⟨-, -, -, -, -, -, h1, h2, h3, h4, -, res, t, b, h5, h6, rfl, rfl, h7⟩ := next_inv h
  have hj : j.val < min it.stepSize it.remaining := by rw [← h2]; exact j.2
  have h8 := C44_truncatedEig eig R it.eig t ht (num := min it.stepSize it.remaining) (by omega) res h5 b
    h6 ⟨j, hj⟩
  have h9 := h7 _ (List.mem_of_getElem? h8)
  rw [real_lt, decide_eq_false_iff_not, not_lt] at h9
  simpa using h9

/-- A small problem: the identity on ℝ², with a random number generator that always returns ones. -/
noncomputable def identityProblem : TruncatedEig ℝ Unit :=
  TruncatedEig.new (ofRows 2 2 [[1, 0], [0, 1]]) .largest ()

/-- A concrete case of C51 and C52: the first call of `next()` on that problem returns a block of one
eigenvalue, which is `1`. -/
theorem identity_next (fuel : Nat) : ∃ vals vecs it',
    identityProblem.intoIter.next (eighInto fuel) ⟨fun _ _ s => (fun _ _ => 1, s)⟩ =
      .ok (some (vals, vecs), it') ∧ vals.len = 1 ∧ vals.get 0 = 1 ∧ it'.remaining = 1 := by
  have sx : HasShape (⟨2, 1, fun _ _ => 1⟩ : Arr2 ℝ) 2 1 := ⟨rfl, rfl⟩
  obtain ⟨x2, l, h2, s2, e2⟩ := orthonormalize_col sx (by simp)
  obtain ⟨ax, h3, s3⟩ := dot_shape
    (⟨rfl, rfl⟩ : HasShape (ofRows 2 2 [[1, 0], [0, 1]] : Arr2 ℝ) 2 2) s2
  have e3 : ∀ i : Fin 2, ax.get i 0 = x2.get i 0 := by
    intro i
    obtain ⟨-, rfl⟩ := Arr2.dot_inv h3
    fin_cases i <;> simp [dotTo_eq, Finset.sum_range_succ, ofRows]
  have h22 : Real.sqrt 2 * Real.sqrt 2 = 2 := Real.mul_self_sqrt (by norm_num)
  have hμ : (∑ k : Fin 2, x2.get k 0 * ax.get k 0) = 1 := by
    have h1 : ∀ i : Fin 2, x2.get i 0 = 1 / Real.sqrt 2 := by
      intro i
      rw [e2 i]
      simp
    rw [Finset.sum_congr rfl fun k _ => by rw [e3 k, h1 k, div_mul_div_comm, h22]]
    norm_num
  have hρ : Real.sqrt (∑ i : Fin 2, (ax.get i 0 -
      (∑ k : Fin 2, x2.get k 0 * ax.get k 0) * x2.get i 0) ^ 2) = 0 := by
    rw [hμ, Finset.sum_congr rfl fun i _ => by rw [e3 i, one_mul, sub_self]]
    simp
  obtain ⟨b, it, h4, -, h5, h6, s7, -, h8⟩ := lobpcgRun_one (n := 2) fuel
    (P := identityProblem.params) (x0 := ⟨2, 1, fun _ _ => 1⟩) (cholYY := none)
    (maxiter := identityProblem.maxiter) (by norm_num) sx (Or.inl ⟨rfl, rfl⟩) rfl h2 s2 h3 s3
    (Or.inr (by
      rw [hρ]
      change (0 : ℝ) ≤ ((defaultPrecision : ℚ) : ℝ)
      exact_mod_cast (by norm_num [defaultPrecision] : (0 : ℚ) ≤ defaultPrecision)))
  rw [hμ] at h6
  rw [hρ] at h8
  have hr : ¬ (b.rnorm.any fun r => NdFloat.lt (NdFloat.ofRat (1 / 10)) r) = true := by
    rw [h8]
    simp only [List.any_cons, List.any_nil, Bool.or_false, real_lt, decide_eq_true_eq, not_lt]
    change (0 : ℝ) ≤ ((1 / 10 : ℚ) : ℝ)
    norm_num
  have hd : identityProblem.decompose (eighInto fuel) ⟨fun _ _ s => (fun _ _ => 1, s)⟩ 1 =
      .ok (.ok b, identityProblem) := by
    unfold TruncatedEig.decompose
    rw [if_neg (by norm_num)]
    simp only [RandomSource.random]
    change (lobpcgRun (eighInto fuel) identityProblem.params ⟨2, 1, fun _ _ => 1⟩
      identityProblem.maxiter >>= _) = _
    rw [h4, ok_bind]
  refine ⟨b.eigvals, b.eigvecs, ?_⟩
  unfold TruncatedEigIterator.next
  have e1 : identityProblem.intoIter.remaining = 2 := rfl
  have e4 : identityProblem.intoIter.stepSize = 1 := rfl
  have e5 : identityProblem.intoIter.eig = identityProblem := rfl
  rw [if_neg (by rw [e1]; norm_num), e1, e4, e5]
  simp only [show min 1 2 = 1 from rfl]
  rw [hd, ok_bind]
  simp only [LobpcgResult.result]
  rw [if_neg hr]
  have e6 : identityProblem.constraints = none := rfl
  rw [e6]
  exact ⟨_, rfl, h5, h6, rfl⟩

end LinfaLinalg
