import Verif.Proofs.Kahan
import Verif.Props.Accuracy
import Verif.Props.LobpcgRitz
import Verif.Props.LobpcgErrors

/-! # C77: all that the iterator of `TruncatedEig` yields, taken together -/

set_option linter.unusedSectionVars false

namespace LinfaLinalg

open Matrix

variable {ρ : Type}

/-- The dot product of two vectors given as lists. -/
def listDot (v w : List ℝ) : ℝ := (List.zipWith (· * ·) v w).sum

/-- The vectors in the list have length `n`, norm one, and are orthogonal to each other. -/
def OrthonormalList (n : Nat) (L : List (List ℝ)) : Prop :=
  (∀ v ∈ L, v.length = n ∧ listDot v v = 1) ∧ L.Pairwise fun v w => listDot v w = 0

/-- All pairs of an eigenvalue and an eigenvector in the items, in the order in which they were returned. -/
def yielded (items : List (Option (Arr1 ℝ × Arr2 ℝ))) : List (ℝ × List ℝ) :=
  (blocks items).flatMap fun b => (List.range b.1.len).map fun j =>
    (b.1.get j, (List.range b.2.nr).map fun i => b.2.get i j)

theorem listDot_map (n : Nat) (f g : Nat → ℝ) :
    listDot ((List.range n).map f) ((List.range n).map g) = ∑ i : Fin n, f i * g i := by
  unfold listDot
  rw [List.zipWith_map, List.zipWith_self, ← Finset.sum_range fun i => f i * g i]
  rfl

theorem orthonormalList_columns {n s : Nat} {c : Arr2 ℝ} (hc : HasShape c n s)
    (h : (toMat n s c)ᵀ * toMat n s c = 1) : OrthonormalList n (columnList c) := by
  obtain ⟨rfl, rfl⟩ := hc
  have key : ∀ i j, i < c.nc → j < c.nc → listDot ((List.range c.nr).map fun k => c.get k i)
      ((List.range c.nr).map fun k => c.get k j) = if i = j then 1 else 0 := by
    intro i j hi hj
    have := congrFun (congrFun h ⟨i, hi⟩) ⟨j, hj⟩
    rw [Matrix.mul_apply, Matrix.one_apply] at this
    rw [listDot_map]
    simpa using this
  unfold columnList
  refine ⟨fun v hv => ?_, ?_⟩
  · obtain ⟨j, hj, rfl⟩ := List.mem_map.1 hv
    rw [List.mem_range] at hj
    exact ⟨by simp, by rw [key j j hj hj, if_pos rfl]⟩
  · rw [List.pairwise_map]
    refine List.Pairwise.imp_of_mem ?_ (List.pairwise_lt_range (n := c.nc))
    intro i j hi hj hij
    rw [List.mem_range] at hi hj
    rw [key i j hi hj, if_neg (by omega)]

theorem listDot_getD {n : Nat} {v w : List ℝ} (hv : v.length = n) (hw : w.length = n) :
    listDot v w = ∑ i : Fin n, v.getD i 0 * w.getD i 0 := by
  have hv' : v = (List.range n).map fun i => v.getD i 0 := by
    apply List.ext_getElem
    · simp [hv]
    · intro i h1 h2
      simp [List.getD_eq_getElem?_getD, h1]
  have hw' : w = (List.range n).map fun i => w.getD i 0 := by
    apply List.ext_getElem
    · simp [hw]
    · intro i h1 h2
      simp [List.getD_eq_getElem?_getD, h1]
  conv_lhs => rw [hv', hw']
  exact listDot_map n _ _

theorem listDot_comm (v w : List ℝ) : listDot v w = listDot w v := by
  unfold listDot
  rw [List.zipWith_comm]
  simp only [mul_comm]

/-- The vectors of an orthonormal list as the columns of a matrix. -/
theorem colMat_orth {n : Nat} {β : Type} (f : β → List ℝ) {L : List β} (h : OrthonormalList n (L.map f)) :
    (Matrix.of fun (i : Fin n) (j : Fin L.length) => (f (L.get j)).getD i 0)ᵀ *
      (Matrix.of fun (i : Fin n) (j : Fin L.length) => (f (L.get j)).getD i 0) = 1 := by
  have h1 : ∀ j, (f (L.get j)).length = n ∧ listDot (f (L.get j)) (f (L.get j)) = 1 := fun j =>
    h.1 _ (List.mem_map.2 ⟨_, List.get_mem _ _, rfl⟩)
  have hp := List.pairwise_iff_get.1 (List.pairwise_map.1 h.2)
  ext i j
  rw [Matrix.mul_apply, Matrix.one_apply]
  simp only [Matrix.transpose_apply, Matrix.of_apply]
  rw [← listDot_getD (h1 i).1 (h1 j).1]
  rcases lt_trichotomy i j with hij | rfl | hij
  · rw [if_neg hij.ne, hp i j hij]
  · rw [if_pos rfl, (h1 i).2]
  · rw [if_neg hij.ne', listDot_comm, hp j i hij]

theorem columns_orth {n : Nat} {y : Arr2 ℝ} (hn : y.nr = n) (h : OrthonormalList n (columnList y)) :
    (toMat n y.nc y)ᵀ * toMat n y.nc y = 1 := by
  subst hn
  have h1 : ∀ j < y.nc, listDot ((List.range y.nr).map fun i => y.get i j)
      ((List.range y.nr).map fun i => y.get i j) = 1 := fun j hj =>
    (h.1 _ (List.mem_map.2 ⟨j, List.mem_range.2 hj, rfl⟩)).2
  have hp : ∀ i j, i < j → j < y.nc → listDot ((List.range y.nr).map fun k => y.get k i)
      ((List.range y.nr).map fun k => y.get k j) = 0 := by
    intro i j hij hj
    have := List.pairwise_iff_getElem.1 (List.pairwise_map.1 h.2) i j (by simp; omega) (by simp; omega) hij
    simpa using this
  ext i j
  rw [Matrix.mul_apply, Matrix.one_apply]
  simp only [Matrix.transpose_apply, toMat_apply]
  rcases lt_trichotomy i j with hij | rfl | hij
  · rw [if_neg hij.ne, ← hp i j hij j.2, listDot_map]
  · rw [if_pos rfl, ← h1 i i.2, listDot_map]
  · rw [if_neg hij.ne', ← hp j i hij i.2, listDot_comm, listDot_map]

theorem orthonormalList_append {n : Nat} {L M : List (List ℝ)} (hL : OrthonormalList n L)
    (hM : OrthonormalList n M) (h : ∀ v ∈ L, ∀ w ∈ M, listDot v w = 0) : OrthonormalList n (L ++ M) := by
  refine ⟨fun v hv => ?_, List.pairwise_append.2 ⟨hL.2, hM.2, h⟩⟩
  rcases List.mem_append.1 hv with hv | hv
  exacts [hL.1 v hv, hM.1 v hv]

/-- The constraint matrix, if any, has `n` rows and orthonormal columns. -/
def ConstraintsOrth (n : Nat) (c : Option (Arr2 ℝ)) : Prop :=
  ∀ y, c = some y → HasShape y n y.nc ∧ (toMat n y.nc y)ᵀ * toMat n y.nc y = 1

/-- The runs of `lobpcg` that the next call of `next()` makes have well-conditioned Gram matrices. -/
def NextConditioned (eig : EigSolver ℝ) (R : RandomSource ℝ ρ) (it : TruncatedEigIterator ℝ ρ) : Prop :=
  ∀ res hist, lobpcgRun eig it.eig.params
      (R.random it.eig.problem.nr (min it.stepSize it.remaining) it.eig.rng).1 it.eig.maxiter =
        .ok (res, hist) →
    ∀ i ∈ hist, ∀ B, i.gram = some B → WellConditioned condFloor B

/-- One call of `next()` keeps the constraints orthonormal. -/
theorem next_orth {n : Nat} {eig : EigSolver ℝ} (he : EigWithin 0 eig) {R : RandomSource ℝ ρ}
    {it it' : TruncatedEigIterator ℝ ρ} (hp : HasShape it.eig.problem n n)
    (hs : (toMat n n it.eig.problem).IsSymm) (h1 : 1 ≤ it.stepSize)
    (hc : ConstraintsOrth n it.eig.constraints) (hg : NextConditioned eig R it)
    {item : Option (Arr1 ℝ × Arr2 ℝ)} (h : it.next eig R = .ok (item, it')) :
    ConstraintsOrth n it'.eig.constraints := by
  obtain ⟨-, -, -, -, -, -, hn⟩ := next_inv h
  rcases item with _ | ⟨vals, vecs⟩
  · rw [hn.2]; exact hc
  obtain ⟨hr, -, hsh, -, hcols, res, t, b, hd, hb, rfl, rfl, -⟩ := hn
  have hsh := hsh (by omega)
  rw [hp.1] at hsh
  unfold TruncatedEig.decompose at hd
  rw [if_neg (by omega)] at hd
  simp only [bind_eq_ok] at hd
  obtain ⟨⟨res', hist⟩, hrun, h2⟩ := hd
  simp only at h2
  injection h2 with h2
  simp only [Prod.mk.injEq] at h2
  obtain ⟨rfl, -⟩ := h2
  have hx0 : HasShape (R.random it.eig.problem.nr (min it.stepSize it.remaining) it.eig.rng).1 n
    (min it.stepSize it.remaining) := ⟨hp.1, rfl⟩
  have hop := it.eig.isOperator hp
  have o1 := C45_returned_partial hs he hop hx0 hrun (hg _ _ hrun) b hb
  have l1 := orthonormalList_columns hsh o1
  have l2 : OrthonormalList n (constraintColumns it'.eig) := by
    rw [hcols]
    unfold constraintColumns
    cases hcc : it.eig.constraints with
    | none => simpa using l1
    | some c =>
      obtain ⟨sc, oc⟩ := hc c hcc
      refine orthonormalList_append (orthonormalList_columns sc oc) l1 ?_
      have h0 := (C46_constraints_partial eig it.eig.params hop.opShape c hcc sc oc _ hx0 _ _ _ hrun).2 b hb
      intro v hv w hw
      unfold columnList at hv hw
      obtain ⟨i, hi, rfl⟩ := List.mem_map.1 hv
      obtain ⟨j, hj, rfl⟩ := List.mem_map.1 hw
      rw [List.mem_range] at hi hj
      rw [sc.1, hsh.1, listDot_map]
      have := congrFun (congrFun h0 ⟨i, hi⟩) ⟨j, by rw [← hsh.2]; exact hj⟩
      rw [Matrix.mul_apply] at this
      simpa using this
  intro y hy
  have hyc : columnList y = constraintColumns it'.eig := by unfold constraintColumns; rw [hy]
  have hlen : 1 ≤ y.nc := by
    have := congrArg List.length (hyc.trans hcols)
    simp only [columnList, List.length_append, List.length_map, List.length_range] at this
    rw [this, hsh.2]
    omega
  rw [← hyc] at l2
  have hnr : y.nr = n := by
    have := (l2.1 ((List.range y.nr).map fun i => y.get i 0)
      (List.mem_map.2 ⟨0, List.mem_range.2 hlen, rfl⟩)).1
    simpa using this
  exact ⟨⟨hnr, rfl⟩, columns_orth hnr l2⟩

/-- What any number of calls of `next()` does. -/
theorem callNext_orth {n : Nat} {eig : EigSolver ℝ} (he : EigWithin 0 eig) {R : RandomSource ℝ ρ} (m : Nat) :
    ∀ (it it' : TruncatedEigIterator ℝ ρ) (items : List (Option (Arr1 ℝ × Arr2 ℝ))),
    HasShape it.eig.problem n n → (toMat n n it.eig.problem).IsSymm → 1 ≤ it.stepSize →
    ConstraintsOrth n it.eig.constraints →
    (∀ i < m, ∀ its it1, callNext eig R i it = .ok (its, it1) → NextConditioned eig R it1) →
    callNext eig R m it = .ok (items, it') →
    ConstraintsOrth n it'.eig.constraints ∧
    (yielded items).map Prod.snd = (blocks items).flatMap (fun b => columnList b.2) ∧
    ∀ p ∈ yielded items, Real.sqrt (∑ i : Fin n, ((toMat n n it.eig.problem).mulVec
      (fun i => p.2.getD i 0) i - p.1 * p.2.getD i 0) ^ 2) ≤ 1 / 10 := by
  induction m with
  | zero =>
    intro it it' items hp hs h1 hc hg h
    unfold callNext at h
    injection h with h
    simp only [Prod.mk.injEq] at h
    obtain ⟨rfl, rfl⟩ := h
    exact ⟨hc, rfl, fun p hp => by simp [yielded, blocks] at hp⟩
  | succ m ih =>
    intro it it' items hp hs h1 hc hg h
    unfold callNext at h
    simp only [bind_eq_ok] at h
    obtain ⟨⟨item, it1⟩, hn, ⟨items', it2⟩, h2, h3⟩ := h
    injection h3 with h3
    simp only [Prod.mk.injEq] at h3
    obtain ⟨rfl, rfl⟩ := h3
    simp only at h2
    have hc1 := next_orth he hp hs h1 hc (hg 0 (by omega) [] it rfl) hn
    obtain ⟨e1, e2, -⟩ := next_inv hn
    have := ih it1 it2 items' (by rw [e2]; exact hp) (by rw [e2]; exact hs) (by rw [e1]; exact h1) hc1
      (fun i hi its it3 h3 => hg (i + 1) (by omega) (item :: its) it3 (by
        unfold callNext
        rw [hn, ok_bind]
        simp only
        rw [h3]
        rfl)) h2
    refine ⟨this.1, ?_, fun p hpp => ?_⟩
    · rcases item with _ | ⟨vals, vecs⟩
      · simpa [yielded, blocks] using this.2.1
      · have hsh := (C51_block eig R it it1 vals vecs h1 hn).2.2.1
        have h4 := this.2.1
        simp only [yielded, blocks, List.filterMap_cons, id, List.flatMap_cons, List.map_append] at h4 ⊢
        rw [h4]
        congr 1
        rw [List.map_map, columnList, hsh.2]
        rfl
    have hcases : p ∈ yielded items' ∨ ∃ vals vecs, item = some (vals, vecs) ∧
        p ∈ (List.range vals.len).map fun j => (vals.get j, (List.range vecs.nr).map fun i => vecs.get i j) := by
      rcases item with _ | ⟨vals, vecs⟩
      · left; simpa [yielded, blocks] using hpp
      · simp only [yielded, blocks, List.filterMap_cons, id, List.flatMap_cons, List.mem_append] at hpp
        rcases hpp with hpp | hpp
        · right; exact ⟨vals, vecs, rfl, hpp⟩
        · left; exact hpp
    rcases hcases with hpp | ⟨vals, vecs, rfl, hpp'⟩
    · rw [← e2]
      exact this.2.2 p hpp
    · obtain ⟨j, hj, rfl⟩ := List.mem_map.1 hpp'
      rw [List.mem_range] at hj
      have hr := C52_residuals_real eig R it it1 hp h1 vals vecs hn ⟨j, hj⟩
      have hsh := (C51_block eig R it it1 vals vecs h1 hn).2.2.1
      rw [hp.1] at hsh
      have hget : ∀ i : Fin n, ((List.range vecs.nr).map fun i => vecs.get i j).getD i 0 = vecs.get i j := by
        intro i
        rw [hsh.1]
        simp [List.getD_eq_getElem?_getD]
      simp only [hget]
      exact hr

/-- **C77**: everything that the iterator of `TruncatedEig` yields, taken together. Start an iterator with a
step size of at least one on a symmetric matrix `A`, with no or orthonormal constraints, and call `next()` any
number of times; exact arithmetic, an exact eigensolver for the small problems, and Gram matrices without
eigenvalues below `1e-10` in the runs of `lobpcg`. Then the constraints and all eigenvectors yielded, by
different calls as well as by the same, are one orthonormal family; every pair has a residual of at most `0.1`;
and the values belong to different eigenvalues of `A` (counted with multiplicity), up to `0.2 √k` if there are
`k`. If all `n` are yielded, they are the whole spectrum up to `0.1 √n`. -/
theorem C77_iterator_orthonormal {n : Nat} {eig : EigSolver ℝ} (he : EigWithin 0 eig) (R : RandomSource ℝ ρ)
    (m : Nat) (it it' : TruncatedEigIterator ℝ ρ) (items : List (Option (Arr1 ℝ × Arr2 ℝ)))
    (hp : HasShape it.eig.problem n n) (hs : (toMat n n it.eig.problem).IsSymm) (h1 : 1 ≤ it.stepSize)
    (hc : ConstraintsOrth n it.eig.constraints)
    (hg : ∀ i < m, ∀ its it1, callNext eig R i it = .ok (its, it1) → NextConditioned eig R it1)
    (h : callNext eig R m it = .ok (items, it')) :
    OrthonormalList n (constraintColumns it.eig ++ (yielded items).map Prod.snd) ∧
    (∀ p ∈ yielded items, Real.sqrt (∑ i : Fin n, ((toMat n n it.eig.problem).mulVec
      (fun i => p.2.getD i 0) i - p.1 * p.2.getD i 0) ^ 2) ≤ 1 / 10) ∧
    (∃ f : Fin (yielded items).length → Fin n, Function.Injective f ∧ ∀ j,
      |((yielded items).get j).1 - eigenvalueDesc hs (f j)| ≤ 1 / 5 * Real.sqrt (yielded items).length) ∧
    ((yielded items).length = n → ∀ (order : Order) (σ : Fin n ≃ Fin (yielded items).length),
      Ordered order (fun i => ((yielded items).get (σ i)).1) → ∀ j,
        |((yielded items).get (σ j)).1 - nthEigenvalue order hs j| ≤ 1 / 10 * Real.sqrt n) := by
  obtain ⟨hc', hmap, hres⟩ := callNext_orth he m it it' items hp hs h1 hc hg h
  obtain ⟨-, -, hcols, -⟩ := C51_history eig R it it' m items h
  have horth : OrthonormalList n (constraintColumns it.eig ++ (yielded items).map Prod.snd) := by
    rw [hmap, ← hcols]
    unfold constraintColumns
    cases hcc : it'.eig.constraints with
    | none => exact ⟨fun v hv => by simp at hv, List.Pairwise.nil⟩
    | some y => exact orthonormalList_columns (hc' y hcc).1 (hc' y hcc).2
  have hV := colMat_orth Prod.snd (L := yielded items)
    ⟨fun v hv => horth.1 v (List.mem_append_right _ hv), (List.pairwise_append.1 horth.2).2.1⟩
  generalize hVdef : (Matrix.of fun (i : Fin n) (j : Fin (yielded items).length) =>
    ((yielded items).get j).2.getD i 0) = V at hV
  have hR : frob (toMat n n it.eig.problem * V - V * diagonal fun j => ((yielded items).get j).1) ≤
      1 / 10 * Real.sqrt (yielded items).length := by
    refine frob_le_of_sq (by positivity) ?_
    rw [Finset.sum_comm, mul_pow, Real.sq_sqrt (Nat.cast_nonneg _)]
    calc _ ≤ ∑ j : Fin (yielded items).length, ((1 : ℝ) / 10) ^ 2 := by
          refine Finset.sum_le_sum fun j _ => ?_
          have h2 := hres _ (List.get_mem (yielded items) j)
          rw [Real.sqrt_le_left (by norm_num)] at h2
          refine le_of_eq_of_le (Finset.sum_congr rfl fun i _ => ?_) h2
          rw [Matrix.sub_apply, Matrix.mul_diagonal, ← hVdef]
          congr 1
          rw [mul_comm]
          rfl
      _ = _ := by rw [Finset.sum_const, Finset.card_univ, Fintype.card_fin, nsmul_eq_mul, mul_comm]
  refine ⟨horth, hres, ?_, fun hlen order σ hσ j => ?_⟩
  · obtain ⟨f, hf, h2⟩ := matched_eigenvalues hs hV fun j => ((yielded items).get j).1
    refine ⟨f, hf, fun j => (h2 j).trans ?_⟩
    linarith
  · have hV' : (V.submatrix id σ)ᵀ * V.submatrix id σ = 1 := by
      rw [Matrix.transpose_submatrix, ← Matrix.submatrix_mul _ _ _ id _ Function.bijective_id, hV,
        Matrix.submatrix_one_equiv]
    have h2 : frob (toMat n n it.eig.problem - V.submatrix id σ *
        diagonal (fun i => ((yielded items).get (σ i)).1) * (V.submatrix id σ)ᵀ) ≤ 1 / 10 * Real.sqrt n := by
      have e1 : toMat n n it.eig.problem - V.submatrix id σ *
          diagonal (fun i => ((yielded items).get (σ i)).1) * (V.submatrix id σ)ᵀ =
          (toMat n n it.eig.problem * V - V * diagonal fun j => ((yielded items).get j).1) * Vᵀ := by
        have e2 : V * Vᵀ = 1 := (Matrix.mul_eq_one_comm_of_equiv σ).2 hV
        rw [Matrix.sub_mul, Matrix.mul_assoc _ V, e2, Matrix.mul_one]
        congr 1
        ext i j
        simp only [Matrix.mul_apply, Matrix.submatrix_apply, id, Matrix.diagonal_apply, Matrix.transpose_apply,
          mul_ite, mul_zero, Finset.sum_ite_eq', Finset.mem_univ, if_true]
        exact Equiv.sum_comp σ fun k => V i k * ((yielded items).get k).1 * V j k
      rw [e1, frob_mul_orth (by rw [transpose_transpose, hV])]
      refine hR.trans (le_of_eq ?_)
      rw [hlen]
    exact eig_accuracy hs hV' _ h2 order (Equiv.refl _) hσ j

theorem exactEig_one : EigOne exactEig := by
  intro a ha
  obtain ⟨v, q, h, -⟩ := exactEig_ok a
  obtain ⟨h1, h2, h3, h4⟩ := exactEig_spec ha (by ext i j; rw [Matrix.transpose_apply, Subsingleton.elim i j]) h
  have e3 : q.get 0 0 * q.get 0 0 = 1 := by
    have := congrFun (congrFun h3 0) 0
    simpa [Matrix.mul_apply] using this
  refine ⟨v, q, h, h1, ?_, h2, e3⟩
  have := congrFun (congrFun h4 0) 0
  simp only [Matrix.mul_apply, Fin.sum_univ_one, Matrix.transpose_apply, toMat_apply, Matrix.diagonal_apply_eq,
    Fin.val_zero] at this
  rw [← this, mul_right_comm, e3, one_mul]

/-- The problem `diag(3, 1)`, with a random number generator that returns the unit vectors one after the
other. -/
noncomputable def unitProblem : TruncatedEig ℝ Nat :=
  TruncatedEig.new (ofRows 2 2 [[3, 0], [0, 1]]) .largest 0

def unitSource : RandomSource ℝ Nat := ⟨fun _ _ s => (fun i _ => if i = s then 1 else 0, s + 1)⟩

theorem unit_run {P : LobParams ℝ} (hP : P.a = fun _ y => (ofRows 2 2 [[3, 0], [0, 1]]).dot y) (ht : 0 ≤ P.tol)
    (k : Fin 2) {cholYY : Option (Arr2 ℝ)} (maxiter : Nat) {x0 x1 : Arr2 ℝ} (hx0 : HasShape x0 2 1)
    (hc : (P.y = none ∧ cholYY = none) ∨ ∃ y yy c, P.y = some y ∧ y.t.dot y = .ok yy ∧
      cholesky yy = .ok c ∧ cholYY = some c)
    (h1 : P.constrain cholYY x0 = .ok x1) (s1 : HasShape x1 2 1)
    (e1 : ∀ i : Fin 2, x1.get i 0 = if i = k then 1 else 0) :
    ∃ b it, lobpcgRun exactEig P x0 maxiter = .ok (.ok b, [it]) ∧ it.gram = none ∧
      b.eigvals.len = 1 ∧ b.eigvals.get 0 = (if k = 0 then 3 else 1) ∧
      HasShape b.eigvecs 2 1 ∧ (∀ i : Fin 2, b.eigvecs.get i 0 = if i = k then 1 else 0) ∧ b.rnorm = [0] := by
  have hs : (∑ i : Fin 2, x1.get i 0 ^ 2) = 1 := by
    rw [Finset.sum_congr rfl fun i _ => by rw [e1 i]]
    simp
  obtain ⟨x2, l, h2, s2, e2⟩ := orthonormalize_col s1 (by rw [hs]; norm_num)
  rw [hs] at e2
  have e2 : ∀ i : Fin 2, x2.get i 0 = if i = k then 1 else 0 := by
    intro i; rw [e2 i, e1 i]; simp
  obtain ⟨ax, h3, s3⟩ := dot_shape
    (⟨rfl, rfl⟩ : HasShape (ofRows 2 2 [[3, 0], [0, 1]] : Arr2 ℝ) 2 2) s2
  have e3 : ∀ i : Fin 2, ax.get i 0 = (if k = 0 then 3 else 1) * x2.get i 0 := by
    intro i
    obtain ⟨-, rfl⟩ := Arr2.dot_inv h3
    have f0 := e2 0
    have f1 := e2 1
    simp only [Fin.val_zero, Fin.val_one] at f0 f1
    fin_cases i <;> fin_cases k <;> simp [dotTo_eq, Finset.sum_range_succ, ofRows, f0, f1]
  have hμ : (∑ j : Fin 2, x2.get j 0 * ax.get j 0) = if k = 0 then 3 else 1 := by
    rw [Finset.sum_congr rfl fun j _ => by rw [e3 j, e2 j]]
    simp
  have hρ : Real.sqrt (∑ i : Fin 2, (ax.get i 0 -
      (∑ j : Fin 2, x2.get j 0 * ax.get j 0) * x2.get i 0) ^ 2) = 0 := by
    rw [hμ, Finset.sum_congr rfl fun i _ => by rw [e3 i, sub_self]]
    simp
  obtain ⟨b, it, h4, hg, -, h5, h6, s7, h7, h8⟩ := lobpcgRun_one_of (n := 2) exactEig_one (maxiter := maxiter)
    (by norm_num) hx0 hc h1 h2 s2 (by rw [hP]; exact h3) s3 (Or.inr (by rw [hρ]; exact ht))
  exact ⟨b, it, h4, hg, h5, by rw [h6, hμ], s7, fun i => by rw [h7, e2], by rw [h8, hρ]⟩

theorem unit_next {it : TruncatedEigIterator ℝ Nat} {b : Lobpcg ℝ} {i : Iterate ℝ} (h1 : it.stepSize = 1)
    (hr : it.remaining ≠ 0) (hrun : lobpcgRun exactEig it.eig.params
      (unitSource.random it.eig.problem.nr 1 it.eig.rng).1 it.eig.maxiter = .ok (.ok b, [i]))
    (hrn : b.rnorm = [0]) (hg : i.gram = none) :
    NextConditioned exactEig unitSource it ∧ ∀ c, (match it.eig.constraints with
          | some c => stackCols c b.eigvecs
          | none => .ok b.eigvecs : M (Arr2 ℝ)) = .ok c →
      it.next exactEig unitSource = .ok (some (b.eigvals, b.eigvecs), ⟨1, it.remaining - 1,
        { it.eig with constraints := some c, rng := it.eig.rng + 1 }⟩) := by
  have hm : min it.stepSize it.remaining = 1 := by rw [h1]; omega
  refine ⟨?_, fun c hc => ?_⟩
  · intro res hist h j hj B hB
    rw [hm, hrun] at h
    simp only [Except.ok.injEq, Prod.mk.injEq] at h
    obtain ⟨-, rfl⟩ := h
    rw [List.mem_singleton] at hj
    rw [hj, hg] at hB
    cases hB
  · unfold TruncatedEigIterator.next
    rw [if_neg hr]
    simp only [hm]
    unfold TruncatedEig.decompose
    rw [if_neg (by norm_num)]
    simp only [hrun, ok_bind, LobpcgResult.result, hrn]
    rw [if_neg (by
      simp only [List.any_cons, List.any_nil, Bool.or_false, real_lt, decide_eq_true_eq, not_lt]
      change (0 : ℝ) ≤ ((1 / 10 : ℚ) : ℝ)
      norm_num)]
    rw [h1]
    cases hcc : it.eig.constraints with
    | none =>
      rw [hcc] at hc
      simp only at hc ⊢
      rw [hc, ok_bind]
      rfl
    | some c0 =>
      rw [hcc] at hc
      simp only at hc ⊢
      rw [hc, ok_bind]
      rfl

/-- A concrete case of C77: the iterator over `diag(3, 1)` yields `3` and `1` in two calls, and all hypotheses
are met. -/
theorem unit_iterator : ∃ items it', callNext exactEig unitSource 2 unitProblem.intoIter = .ok (items, it') ∧
    (yielded items).map Prod.fst = [3, 1] ∧
    HasShape unitProblem.intoIter.eig.problem 2 2 ∧ (toMat 2 2 unitProblem.intoIter.eig.problem).IsSymm ∧
    1 ≤ unitProblem.intoIter.stepSize ∧ ConstraintsOrth 2 unitProblem.intoIter.eig.constraints ∧
    ∀ i < 2, ∀ its it1, callNext exactEig unitSource i unitProblem.intoIter = .ok (its, it1) →
      NextConditioned exactEig unitSource it1 := by
  have ht : (0 : ℝ) ≤ ((defaultPrecision : ℚ) : ℝ) := by
    exact_mod_cast (by norm_num [defaultPrecision] : (0 : ℚ) ≤ defaultPrecision)
  have hsh : HasShape unitProblem.intoIter.eig.problem 2 2 := ⟨rfl, rfl⟩
  -- the first call
  obtain ⟨b, i, h1, h2, h3, h4, h5, h6, h7⟩ := unit_run (P := unitProblem.intoIter.eig.params) rfl ht 0
    (cholYY := none) unitProblem.intoIter.eig.maxiter
    (x0 := (unitSource.random unitProblem.intoIter.eig.problem.nr 1 unitProblem.intoIter.eig.rng).1) ⟨rfl, rfl⟩
    (Or.inl ⟨rfl, rfl⟩) rfl ⟨rfl, rfl⟩ (by intro i; fin_cases i <;> rfl)
  obtain ⟨g1, n1⟩ := unit_next (it := unitProblem.intoIter) rfl (by decide) h1 h7 h2
  have n1 := n1 b.eigvecs rfl
  generalize hit1 : (⟨1, unitProblem.intoIter.remaining - 1, { unitProblem.intoIter.eig with
      constraints := some b.eigvecs, rng := unitProblem.intoIter.eig.rng + 1 }⟩ :
        TruncatedEigIterator ℝ Nat) = it1 at n1
  -- the second
  have oY : (toMat 2 1 b.eigvecs)ᵀ * toMat 2 1 b.eigvecs = 1 := by
    ext i j
    rw [Subsingleton.elim i 0, Subsingleton.elim j 0, Matrix.mul_apply]
    simp [h6]
  obtain ⟨yy, hyy, syy⟩ := dot_shape (shape_t h5) h5
  obtain ⟨-, eyy⟩ := tdot_mat hyy h5 h5
  have hsym : (toMat 1 1 yy).IsSymm := by ext i j; rw [Matrix.transpose_apply, Subsingleton.elim i j]
  obtain ⟨C, hC⟩ := (C09_cholesky_iff_posDef yy syy hsym).1.2 (by
    refine ⟨hsym, fun x hx => ?_⟩
    rw [eyy, oY, Matrix.one_mulVec]
    exact dot_self_pos hx)
  obtain ⟨sC, pC, eC⟩ := C08_cholesky_factor yy C syy hsym hC
  have sx : HasShape (unitSource.random it1.eig.problem.nr 1 it1.eig.rng).1 2 1 := by
    rw [← hit1]; exact ⟨rfl, rfl⟩
  obtain ⟨x1, a1, s1⟩ := applyConstraints_shape sx sC h5
  obtain ⟨X, a2, -, a3⟩ := applyConstraints_mat a1 sx h5 sC pC
  have hX : X = 0 := by
    apply matrix_mul_left_cancel pC.isUnit
    rw [a2, Matrix.mul_zero]
    ext i j
    rw [Matrix.mul_apply, Fin.sum_univ_two, Matrix.zero_apply, Subsingleton.elim i 0, Subsingleton.elim j 0]
    simp only [Matrix.transpose_apply, toMat_apply]
    have f0 := h6 0
    have f1 := h6 1
    simp only [Fin.val_zero, Fin.val_one] at f0 f1
    rw [← hit1]
    simp [f0, f1, unitSource, RandomSource.random, unitProblem, TruncatedEig.new, TruncatedEig.intoIter]
  have hcon : it1.eig.params.constrain (some C) (unitSource.random it1.eig.problem.nr 1 it1.eig.rng).1 =
      .ok x1 := by
    rw [← hit1] at a1 ⊢
    exact a1
  obtain ⟨b', i', h1', h2', h3', h4', h5', h6', h7'⟩ := unit_run (P := it1.eig.params) (by rw [← hit1]; rfl)
    (by rw [← hit1]; exact ht) 1 (cholYY := some C) it1.eig.maxiter sx
    (Or.inr ⟨b.eigvecs, yy, C, by rw [← hit1]; rfl, hyy, hC, rfl⟩) hcon s1 (by
      intro i
      have := congrFun (congrFun a3 i) 0
      rw [hX, Matrix.mul_zero, sub_zero] at this
      have e : x1.get i 0 = (unitSource.random it1.eig.problem.nr 1 it1.eig.rng).1.get i 0 := this
      rw [e, ← hit1]
      fin_cases i <;> rfl)
  obtain ⟨g2, n2⟩ := unit_next (it := it1) (by rw [← hit1]) (by rw [← hit1]; exact one_ne_zero) h1' h7' h2'
  have hst : ∃ c, stackCols b.eigvecs b'.eigvecs = .ok c := by
    unfold stackCols
    rw [if_neg (by rw [h5.2]; omega), if_neg (by rw [h5.1, h5'.1]; simp)]
    exact ⟨_, rfl⟩
  obtain ⟨c, hst⟩ := hst
  have n2 := n2 c (by rw [← hit1]; exact hst)
  generalize (⟨1, it1.remaining - 1, _⟩ : TruncatedEigIterator ℝ Nat) = it2 at n2
  have hcall : callNext exactEig unitSource 1 unitProblem.intoIter = .ok ([some (b.eigvals, b.eigvecs)], it1) := by
    unfold callNext callNext
    rw [n1]
    rfl
  refine ⟨[some (b.eigvals, b.eigvecs), some (b'.eigvals, b'.eigvecs)], it2, ?_, ?_, hsh, ?_, le_rfl, ?_, ?_⟩
  · unfold callNext callNext callNext
    rw [n1, ok_bind]
    simp only
    rw [n2]
    rfl
  · simp [yielded, blocks, h3, h3', h4, h4']
  · ext i j
    fin_cases i <;> fin_cases j <;> simp [unitProblem, TruncatedEig.new, TruncatedEig.intoIter, ofRows]
  · intro y hy
    cases hy
  · intro i hi its it2 h
    interval_cases i
    · unfold callNext at h
      simp only [Except.ok.injEq, Prod.mk.injEq] at h
      rw [← h.2]
      exact g1
    · rw [hcall] at h
      simp only [Except.ok.injEq, Prod.mk.injEq] at h
      rw [← h.2]
      exact g2

end LinfaLinalg
