import Verif.Props.LobpcgFull
import Verif.Props.Ieee

/-! # The signs that `sorted_eig` chooses

`/repo/src/lobpcg/algorithm.rs:40` says "sort and ensure that signs are deterministic". The result of
`sorted_eig` does not depend on the signs of the vectors that the eigensolver returns, unless the first
component of a vector is zero; and in exact arithmetic it is the same for all exact eigensolvers if the
eigenvalues are distinct and no eigenvector has a zero first component. -/

set_option linter.unusedSectionVars false

namespace LinfaLinalg

open Matrix

section generic

variable {α : Type} [Zero α] [One α] [Add α] [Sub α] [Mul α] [Div α] [Neg α] [NdFloat α]

/-- The eigenproblem that `sorted_eig` solves before sorting has the result `(v, q)`, of size `s`. -/
def InnerResult (s : Nat) (eig : EigSolver α) (a : Arr2 α) (b : Option (Arr2 α)) (v : Arr1 α) (q : Arr2 α) :
    Prop :=
  (match b with
    | some b => generalizedEig eig a b = .ok (v, q)
    | none => eig a = .ok (v, q)) ∧ v.len = s ∧ HasShape q s s

/-- What `sorted_eig` does to the result of the eigensolver: one permutation, and every column is multiplied
by the sign of its first entry. -/
theorem sortedEig_form [LawfulLe α] {eig : EigSolver α} {a : Arr2 α} {b : Option (Arr2 α)} {v0 : Arr1 α}
    {q0 : Arr2 α} {s size : Nat} (hin : InnerResult s eig a b v0 q0) (hnan : NaNFree v0) (hs : 1 ≤ s)
    (hsize : size ≤ s) (order : Order) :
    ∃ (vals : Arr1 α) (vecs : Arr2 α) (σ : Equiv.Perm (Fin s)),
      sortedEig eig a b size order = .ok (vals, vecs) ∧ vals.len = size ∧ HasShape vecs s size ∧
      StableSortPerm order s v0.get σ ∧
      (∀ j : Fin size, vals.get j = v0.get (σ (Fin.castLE hsize j))) ∧
      ∀ (i : Fin s) (j : Fin size), vecs.get i j =
        q0.get i (σ (Fin.castLE hsize j)) * NdFloat.signum (q0.get 0 (σ (Fin.castLE hsize j))) := by
  obtain ⟨hin, hv, hq⟩ := hin
  subst hv
  obtain ⟨ov, oq, σ, h, hσ, hl, hsh, hov, hoq⟩ := C33_sort_eig v0 q0 v0.len hq hnan order
  have e1 : sortedEig eig a b size order = .ok
      (⟨size - 0, fun i => ov.get (0 + i)⟩,
        ⟨oq.nr - 0, size - 0, fun i j =>
          oq.get (0 + i) (0 + j) * NdFloat.signum (oq.get 0 (0 + j))⟩) := by
    unfold sortedEig
    cases b <;> simp only at hin ⊢ <;> rw [hin, ok_bind]
    all_goals
      simp only
      rw [h, ok_bind]
      simp only
      rw [if_neg (by rw [hsh.1]; omega)]
      unfold Arr2.scaleCols Arr1.slice Arr2.slice
      rw [if_pos rfl, ok_bind, if_pos ⟨Nat.zero_le _, by rw [hl]; exact hsize⟩, ok_bind]
      simp only
      rw [if_pos ⟨Nat.zero_le _, le_refl _, Nat.zero_le _, by rw [hsh.2]; exact hsize⟩, ok_bind]
  refine ⟨_, _, σ, e1, by simp, ⟨by simpa using hsh.1, by simp⟩, hσ, ?_, ?_⟩
  · intro j
    simp only [Nat.zero_add]
    exact hov (Fin.castLE hsize j)
  · intro i j
    simp only [Nat.zero_add]
    rw [show oq.get i j = _ from hoq i i.2 (Fin.castLE hsize j),
      show oq.get 0 j = _ from hoq 0 hs (Fin.castLE hsize j)]

/-- Two permutations that sort the same values stably are the same. -/
theorem StableSortPerm.unique [LawfulLe α] {order : Order} {n : Nat} {v : Nat → α}
    {σ τ : Equiv.Perm (Fin n)} (hσ : StableSortPerm order n v σ) (hτ : StableSortPerm order n v τ) : σ = τ := by
  have key : ∀ i j : Fin n, i < j → τ.symm (σ i) < τ.symm (σ j) := by
    intro i j hij
    by_contra hc
    have hne : τ.symm (σ j) ≠ τ.symm (σ i) := fun h => hij.ne' (σ.injective (τ.symm.injective h))
    have hlt : τ.symm (σ j) < τ.symm (σ i) := lt_of_le_of_ne (not_lt.1 hc) hne
    have h1 := hτ.sorted _ _ hlt
    have h2 := hτ.stable _ _ hlt
    simp only [Equiv.apply_symm_apply] at h1 h2
    have h3 := hσ.stable i j hij h1
    have h4 := h2 (hσ.sorted i j hij)
    exact absurd h3 (not_lt.2 h4.le)
  have hm : StrictMono (σ.trans τ.symm) := fun i j hij => key i j hij
  have h1 : (σ.trans τ.symm) = Equiv.refl _ := by
    ext i
    have h2 : ∀ f : Fin n → Fin n, StrictMono f → Function.Surjective f → f = id := by
      intro f hf hsf
      have := (Subsingleton.elim (StrictMono.orderIsoOfSurjective f hf hsf) (OrderIso.refl (Fin n)))
      funext x
      exact congrArg (fun e : Fin n ≃o Fin n => e x) this
    rw [show (σ.trans τ.symm) i = id i from congrFun (h2 _ hm (Equiv.surjective _)) i]
    rfl
  ext i
  have := congrArg (fun e : Equiv.Perm (Fin n) => τ (e i)) h1
  simp only [Equiv.trans_apply, Equiv.apply_symm_apply, Equiv.refl_apply] at this
  rw [this]

end generic

/-! ### Floating-point numbers -/

variable {R : Rounding}

/-- Multiplying by the sign of a number: flipping the sign bits of both does not change the product. -/
theorem flt_neg_mul_signum (x y : Flt R) :
    (-x) * NdFloat.signum (-y) = x * NdFloat.signum y := by
  change Flt.mul (Flt.neg x) (Flt.signum (Flt.neg y)) = Flt.mul x (Flt.signum y)
  rcases x with _ | s | ⟨s, m⟩ <;> rcases y with _ | t | ⟨t, n⟩ <;> try rfl
  all_goals cases s <;> cases t <;> rfl

/-- **C107**: in floating-point arithmetic the result of `sorted_eig` does not depend on the signs of the
vectors that the eigensolver returns. This holds bit for bit, also with zeros and NaN as first components. -/
theorem C107_signs_float {s size : Nat} {eig eig' : EigSolver (Flt R)} {a : Arr2 (Flt R)}
    {b : Option (Arr2 (Flt R))} {v : Arr1 (Flt R)} {q q' : Arr2 (Flt R)} (h : InnerResult s eig a b v q)
    (h' : InnerResult s eig' a b v q') (hnan : NaNFree v) (flip : Nat → Bool)
    (hq : ∀ (i : Nat) (j : Nat), i < s → j < s → q'.get i j = if flip j then -q.get i j else q.get i j)
    (hs : 1 ≤ s) (hsize : size ≤ s) (order : Order) :
    ∃ (vals vals' : Arr1 (Flt R)) (vecs vecs' : Arr2 (Flt R)),
      sortedEig eig a b size order = .ok (vals, vecs) ∧ sortedEig eig' a b size order = .ok (vals', vecs') ∧
      vals.len = size ∧ vals'.len = size ∧ HasShape vecs s size ∧ HasShape vecs' s size ∧
      (∀ j < size, vals'.get j = vals.get j) ∧ ∀ i < s, ∀ j < size, vecs'.get i j = vecs.get i j := by
  obtain ⟨vals, vecs, σ, h1, h2, h3, h4, h5, h6⟩ := sortedEig_form h hnan hs hsize order
  obtain ⟨vals', vecs', σ', h1', h2', h3', h4', h5', h6'⟩ := sortedEig_form h' hnan hs hsize order
  obtain rfl := h4.unique h4'
  refine ⟨vals, vals', vecs, vecs', h1, h1', h2, h2', h3, h3', fun j hj => ?_, fun i hi j hj => ?_⟩
  · exact (h5' ⟨j, hj⟩).trans (h5 ⟨j, hj⟩).symm
  · rw [show vecs'.get i j = _ from h6' ⟨i, hi⟩ ⟨j, hj⟩, show vecs.get i j = _ from h6 ⟨i, hi⟩ ⟨j, hj⟩,
      hq _ _ hi (Fin.is_lt _), hq _ _ hs (Fin.is_lt _)]
    split_ifs
    · exact flt_neg_mul_signum _ _
    · rfl

/-- **C107**: in floating-point arithmetic no entry of the first row of the vectors that `sorted_eig` returns
has its sign bit set, unless it is NaN. -/
theorem C107_row_float {s size : Nat} {eig : EigSolver (Flt R)} {a : Arr2 (Flt R)} {b : Option (Arr2 (Flt R))}
    {v : Arr1 (Flt R)} {q : Arr2 (Flt R)} (h : InnerResult s eig a b v q) (hnan : NaNFree v) (hs : 1 ≤ s)
    (hsize : size ≤ s) (order : Order) :
    ∃ (vals : Arr1 (Flt R)) (vecs : Arr2 (Flt R)), sortedEig eig a b size order = .ok (vals, vecs) ∧
      ∀ j < size, vecs.get 0 j = .nan ∨ vecs.get 0 j = .inf false ∨ ∃ m, vecs.get 0 j = .fin false m := by
  obtain ⟨vals, vecs, σ, h1, h2, h3, h4, h5, h6⟩ := sortedEig_form h hnan hs hsize order
  refine ⟨vals, vecs, h1, fun j hj => ?_⟩
  rw [show vecs.get 0 j = _ from h6 ⟨0, hs⟩ ⟨j, hj⟩]
  generalize q.get _ _ = x
  change Flt.mul x (Flt.signum x) = _ ∨ Flt.mul x (Flt.signum x) = _ ∨ ∃ m, Flt.mul x (Flt.signum x) = _
  rcases x with _ | s | ⟨s, m⟩
  · exact Or.inl rfl
  · right; left
    simp [Flt.signum, Flt.mul]
  · right
    have : Flt.mul (Flt.fin s m) (Flt.signum (Flt.fin s m)) = (Flt.round false (m * 1) : Flt R) := by
      simp [Flt.signum, Flt.mul]
    rw [this]
    unfold Flt.round
    split
    · exact Or.inl rfl
    · exact Or.inr ⟨_, rfl⟩

/-! ### Exact arithmetic -/

/-- **C107**: in exact arithmetic the first row of the vectors that `sorted_eig` returns is not negative. -/
theorem C107_row {s size : Nat} {eig : EigSolver ℝ} {a : Arr2 ℝ} {b : Option (Arr2 ℝ)}
    {v : Arr1 ℝ} {q : Arr2 ℝ} (h : InnerResult s eig a b v q) (hs : 1 ≤ s)
    (hsize : size ≤ s) (order : Order) :
    ∃ (vals : Arr1 ℝ) (vecs : Arr2 ℝ), sortedEig eig a b size order = .ok (vals, vecs) ∧
      ∀ j < size, 0 ≤ vecs.get 0 j := by
  obtain ⟨vals, vecs, σ, h1, h2, h3, h4, h5, h6⟩ := sortedEig_form h (NaNFree.real v) hs hsize order
  refine ⟨vals, vecs, h1, fun j hj => ?_⟩
  rw [show vecs.get 0 j = _ from h6 ⟨0, hs⟩ ⟨j, hj⟩]
  rw [real_signum]
  split_ifs with h0
  · simp only at h0 ⊢
    linarith
  · simp only [not_lt] at h0 ⊢
    linarith

/-- Multiplying by the sign of a real number. -/
theorem real_flip_signum {e x y : ℝ} (he : e * e = 1) (hy : y ≠ 0) :
    (e * x) * NdFloat.signum (e * y) = x * NdFloat.signum y := by
  have h : e = 1 ∨ e = -1 := mul_self_eq_one_iff.1 he
  rw [real_signum, real_signum]
  rcases h with rfl | rfl
  · simp
  · rcases lt_or_gt_of_ne hy with h | h
    · rw [if_neg (by linarith), if_pos h]; ring
    · rw [if_pos (by linarith), if_neg (by linarith)]; ring

/-- **C107**: in exact arithmetic the result of `sorted_eig` does not depend on the signs of the vectors that
the eigensolver returns, if none has a zero first component. -/
theorem C107_signs {s size : Nat} {eig eig' : EigSolver ℝ} {a : Arr2 ℝ}
    {b : Option (Arr2 ℝ)} {v : Arr1 ℝ} {q q' : Arr2 ℝ} (h : InnerResult s eig a b v q)
    (h' : InnerResult s eig' a b v q') (sg : Nat → ℝ) (hsg : ∀ j < s, sg j * sg j = 1)
    (hq : ∀ (i : Nat) (j : Nat), i < s → j < s → q'.get i j = sg j * q.get i j)
    (h0 : ∀ j < s, q.get 0 j ≠ 0) (hs : 1 ≤ s) (hsize : size ≤ s) (order : Order) :
    ∃ (vals vals' : Arr1 ℝ) (vecs vecs' : Arr2 ℝ),
      sortedEig eig a b size order = .ok (vals, vecs) ∧ sortedEig eig' a b size order = .ok (vals', vecs') ∧
      vals.len = size ∧ vals'.len = size ∧ HasShape vecs s size ∧ HasShape vecs' s size ∧
      (∀ j < size, vals'.get j = vals.get j) ∧ ∀ i < s, ∀ j < size, vecs'.get i j = vecs.get i j := by
  obtain ⟨vals, vecs, σ, h1, h2, h3, h4, h5, h6⟩ := sortedEig_form h (NaNFree.real v) hs hsize order
  obtain ⟨vals', vecs', σ', h1', h2', h3', h4', h5', h6'⟩ := sortedEig_form h' (NaNFree.real v) hs hsize order
  obtain rfl := h4.unique h4'
  refine ⟨vals, vals', vecs, vecs', h1, h1', h2, h2', h3, h3', fun j hj => ?_, fun i hi j hj => ?_⟩
  · exact (h5' ⟨j, hj⟩).trans (h5 ⟨j, hj⟩).symm
  · rw [show vecs'.get i j = _ from h6' ⟨i, hi⟩ ⟨j, hj⟩, show vecs.get i j = _ from h6 ⟨i, hi⟩ ⟨j, hj⟩,
      hq _ _ hi (Fin.is_lt _), hq _ _ hs (Fin.is_lt _)]
    exact real_flip_signum (hsg _ (Fin.is_lt _)) (h0 _ (Fin.is_lt _))

/-- **C107**, the limit of the claim in the source: a vector with a zero first component keeps the sign that
the eigensolver gave it. -/
theorem C107_zero {s size : Nat} {eig : EigSolver ℝ} {a : Arr2 ℝ} {b : Option (Arr2 ℝ)}
    {v : Arr1 ℝ} {q : Arr2 ℝ} (h : InnerResult s eig a b v q) (hs : 1 ≤ s)
    (hsize : size ≤ s) (order : Order) :
    ∃ (vals : Arr1 ℝ) (vecs : Arr2 ℝ) (σ : Equiv.Perm (Fin s)),
      sortedEig eig a b size order = .ok (vals, vecs) ∧ StableSortPerm order s v.get σ ∧
      ∀ j : Fin size, q.get 0 (σ (Fin.castLE hsize j)) = 0 →
        ∀ i < s, vecs.get i j = q.get i (σ (Fin.castLE hsize j)) := by
  obtain ⟨vals, vecs, σ, h1, h2, h3, h4, h5, h6⟩ := sortedEig_form h (NaNFree.real v) hs hsize order
  refine ⟨vals, vecs, σ, h1, h4, fun j hj i hi => ?_⟩
  rw [show vecs.get i j = _ from h6 ⟨i, hi⟩ j, hj, real_signum, if_neg (lt_irrefl 0), mul_one]

/-- Two solutions of one generalized eigenproblem with distinct values differ by a permutation and signs. -/
theorem diagonalise_unique {s : Nat} {A B Q Q' : Matrix (Fin s) (Fin s) ℝ} {d d' : Fin s → ℝ} (hB : B.IsSymm)
    (h1 : Qᵀ * B * Q = 1) (h2 : Qᵀ * A * Q = diagonal d) (h1' : Q'ᵀ * B * Q' = 1)
    (h2' : Q'ᵀ * A * Q' = diagonal d') (hd : Function.Injective d) :
    ∃ (τ : Equiv.Perm (Fin s)) (e : Fin s → ℝ), (∀ j, e j * e j = 1) ∧ (∀ j, d' j = d (τ j)) ∧
      ∀ i j, Q' i j = e j * Q i (τ j) := by
  set W := Qᵀ * B * Q' with hW
  have i1 : Q * (Qᵀ * B) = 1 := mul_eq_one_comm.1 h1
  have i2 : B * Q' * Q'ᵀ = 1 := by
    rw [Matrix.mul_assoc] at h1'
    exact mul_eq_one_comm.1 h1'
  have hQ : Q' = Q * W := by
    rw [hW, ← Matrix.mul_assoc, i1, Matrix.one_mul]
  have hWW : Wᵀ * W = 1 := by
    have hBt : Bᵀ = B := hB
    rw [hW, Matrix.transpose_mul, Matrix.transpose_mul, Matrix.transpose_transpose, hBt]
    calc Q'ᵀ * (B * Q) * (Qᵀ * B * Q') = Q'ᵀ * B * (Q * (Qᵀ * B)) * Q' := by simp only [Matrix.mul_assoc]
      _ = 1 := by rw [i1, Matrix.mul_one, h1']
  have hDW : diagonal d * W = W * diagonal d' := by
    rw [hW, ← h2, ← h2']
    calc Qᵀ * A * Q * (Qᵀ * B * Q') = Qᵀ * A * (Q * (Qᵀ * B)) * Q' := by simp only [Matrix.mul_assoc]
      _ = Qᵀ * (B * Q' * Q'ᵀ) * A * Q' := by rw [i1, i2, Matrix.mul_one, Matrix.mul_one]
      _ = Qᵀ * B * Q' * (Q'ᵀ * A * Q') := by simp only [Matrix.mul_assoc]
  have hcol : ∀ j, ∑ i, W i j * W i j = 1 := by
    intro j
    have := congrFun (congrFun hWW j) j
    simpa [Matrix.mul_apply] using this
  have hz : ∀ i j, W i j ≠ 0 → d i = d' j := by
    intro i j hij
    have := congrFun (congrFun hDW i) j
    rw [Matrix.diagonal_mul, Matrix.mul_diagonal, mul_comm] at this
    exact mul_left_cancel₀ hij this
  have hex : ∀ j, ∃ i, W i j ≠ 0 := by
    intro j
    by_contra hc
    push Not at hc
    have := hcol j
    simp [hc] at this
  choose t ht using hex
  have hother : ∀ j i, i ≠ t j → W i j = 0 := by
    intro j i hi
    by_contra hc
    exact hi (hd ((hz _ _ hc).trans (hz _ _ (ht j)).symm))
  have hsq : ∀ j, W (t j) j * W (t j) j = 1 := by
    intro j
    rw [← hcol j, Finset.sum_eq_single (t j)]
    · intro i _ hi; rw [hother j i hi, mul_zero]
    · simp
  have hinj : Function.Injective t := by
    intro j k hjk
    by_contra hne
    have h := congrFun (congrFun hWW j) k
    rw [Matrix.mul_apply, Matrix.one_apply_ne hne, Finset.sum_eq_single (t j)] at h
    · rw [Matrix.transpose_apply] at h
      rcases mul_eq_zero.1 h with h | h
      · exact ht j h
      · rw [hjk] at h; exact ht k h
    · intro i _ hi; rw [Matrix.transpose_apply, hother j i hi, zero_mul]
    · simp
  refine ⟨Equiv.ofBijective t (Finite.injective_iff_bijective.1 hinj), fun j => W (t j) j, hsq,
    fun j => (hz _ _ (ht j)).symm, fun i j => ?_⟩
  rw [hQ, Matrix.mul_apply, Finset.sum_eq_single (t j)]
  · rw [mul_comm]; rfl
  · intro k _ hk; rw [hother j k hk, mul_zero]
  · simp

/-- The generalized eigenproblem for `A` and `B` has the exact solution `(d, Q)`, with distinct values, and no
vector has a zero first component. -/
structure Distinct {s : Nat} (A B : Matrix (Fin s) (Fin s) ℝ) (d : Fin s → ℝ) (Q : Matrix (Fin s) (Fin s) ℝ) :
    Prop where
  norm : Qᵀ * B * Q = 1
  diag : Qᵀ * A * Q = diagonal d
  inj : Function.Injective d
  first : ∀ (h : 0 < s) j, Q ⟨0, h⟩ j ≠ 0

/-- The column of `Q` whose first component has been made positive. -/
noncomputable def positive {s : Nat} (Q : Matrix (Fin s) (Fin s) ℝ) (hs : 1 ≤ s) (i j : Fin s) : ℝ :=
  if Q ⟨0, hs⟩ j < 0 then -Q i j else Q i j

/-- The result of `sorted_eig` if the eigensolver is exact. -/
theorem sortedEig_determined {s size : Nat} {eig : EigSolver ℝ} {a : Arr2 ℝ} {b : Option (Arr2 ℝ)}
    {v : Arr1 ℝ} {q : Arr2 ℝ} (h : InnerResult s eig a b v q) {A B : Matrix (Fin s) (Fin s) ℝ} (hB : B.IsSymm)
    (h1 : (toMat s s q)ᵀ * B * toMat s s q = 1)
    (h2 : (toMat s s q)ᵀ * A * toMat s s q = diagonal fun i : Fin s => v.get i)
    {d : Fin s → ℝ} {Q : Matrix (Fin s) (Fin s) ℝ} (hD : Distinct A B d Q) (hs : 1 ≤ s)
    (hsize : size ≤ s) (order : Order) :
    ∃ (vals : Arr1 ℝ) (vecs : Arr2 ℝ) (ρ : Equiv.Perm (Fin s)),
      sortedEig eig a b size order = .ok (vals, vecs) ∧ vals.len = size ∧ HasShape vecs s size ∧
      Ordered order (fun j => d (ρ j)) ∧
      (∀ j : Fin size, vals.get j = d (ρ (Fin.castLE hsize j))) ∧
      ∀ (i : Fin s) (j : Fin size), vecs.get i j = positive Q hs i (ρ (Fin.castLE hsize j)) := by
  obtain ⟨τ, e, he, hd, hQ⟩ := diagonalise_unique hB hD.norm hD.diag h1 h2 hD.inj
  obtain ⟨vals, vecs, σ, g1, g2, g3, g4, g5, g6⟩ := sortedEig_form h (NaNFree.real v) hs hsize order
  refine ⟨vals, vecs, σ.trans τ, g1, g2, g3, ?_, fun j => ?_, fun i j => ?_⟩
  · have := stableSortPerm_ordered g4
    have e1 : (fun i : Fin s => v.get (σ i)) = fun j => d ((σ.trans τ) j) := by
      funext j; exact hd (σ j)
    rwa [e1] at this
  · rw [g5 j]; exact hd _
  · have e1 : ∀ (i : Fin s) (j : Fin s), q.get i j = e j * Q i (τ j) := hQ
    have e2 : ∀ j : Fin s, q.get 0 j = e j * Q ⟨0, hs⟩ (τ j) := hQ ⟨0, hs⟩
    rw [g6 i j, e1, e2, real_flip_signum (he _) (hD.first hs _), real_signum]
    unfold positive
    by_cases hc : Q ⟨0, hs⟩ (τ (σ (Fin.castLE hsize j))) < 0
    · rw [if_pos hc, Equiv.trans_apply, if_pos hc, mul_neg_one]
    · rw [if_neg hc, Equiv.trans_apply, if_neg hc, mul_one]

/-- Sorting distinct values is unique. -/
theorem ordered_perm_unique {s : Nat} {d : Fin s → ℝ} (hd : Function.Injective d) {order : Order}
    {ρ ρ' : Equiv.Perm (Fin s)} (h : Ordered order fun j => d (ρ j)) (h' : Ordered order fun j => d (ρ' j)) :
    ρ = ρ' := by
  have key : ∀ ρ : Equiv.Perm (Fin s), Ordered order (fun j => d (ρ j)) →
      StableSortPerm order s (fun i => if hi : i < s then d ⟨i, hi⟩ else 0) ρ := by
    intro ρ h
    have aux : ∀ i j, i < j → InOrder order (d (ρ i)) (d (ρ j)) ∧ ¬ InOrder order (d (ρ j)) (d (ρ i)) := by
      intro i j hij
      have hne : d (ρ i) ≠ d (ρ j) := fun hc => hij.ne (ρ.injective (hd hc))
      cases order with
      | smallest =>
        have := lt_of_le_of_ne (h i j hij.le) hne
        simpa [InOrder] using And.intro this.le this
      | largest =>
        have := lt_of_le_of_ne (h i j hij.le) hne.symm
        simpa [InOrder] using And.intro this.le this
    refine ⟨fun i j hij => ?_, fun i j hij hc => ?_⟩
    · simpa using (aux i j hij).1
    · exact absurd (by simpa using hc) (aux i j hij).2
  exact (key ρ h).unique (key ρ' h')

/-- The eigensolver solves the problems for which it comes back exactly. -/
def EigExact (eig : EigSolver ℝ) : Prop :=
  ∀ (s : Nat) (a : Arr2 ℝ) (v : Arr1 ℝ) (q : Arr2 ℝ), HasShape a s s → (toMat s s a).IsSymm →
    eig a = .ok (v, q) → v.len = s ∧ HasShape q s s ∧ (toMat s s q)ᵀ * toMat s s q = 1 ∧
      (toMat s s q)ᵀ * toMat s s a * toMat s s q = diagonal fun i : Fin s => v.get i

theorem EigExact.orth {eig : EigSolver ℝ} (h : EigExact eig) : EigOrth eig := fun s a v q h1 h2 h3 =>
  let ⟨e1, e2, e3, _⟩ := h s a v q h1 h2 h3
  ⟨e1, e2, e3⟩

/-- The smallest eigenvalue of a Gram matrix is not below the threshold of `generalized_eig`. -/
def AboveFloor {s : Nat} (B : Matrix (Fin s) (Fin s) ℝ) : Prop :=
  ∀ x : Fin s → ℝ, (gramFloor : ℝ) * (x ⬝ᵥ x) ≤ x ⬝ᵥ (B *ᵥ x)

/-- With an exact eigensolver `generalized_eig` solves the generalized problem exactly, if the threshold
has no effect. -/
theorem generalizedEig_exact {s : Nat} {eig : EigSolver ℝ} (he : EigExact eig) {a b : Arr2 ℝ} {v : Arr1 ℝ}
    {q : Arr2 ℝ} (h : generalizedEig eig a b = .ok (v, q)) (sa : HasShape a s s) (ha : (toMat s s a).IsSymm)
    (sb : HasShape b s s) (hb : (toMat s s b).IsSymm) (hf : AboveFloor (toMat s s b)) :
    v.len = s ∧ HasShape q s s ∧ (toMat s s q)ᵀ * toMat s s b * toMat s s q = 1 ∧
      (toMat s s q)ᵀ * toMat s s a * toMat s s q = diagonal fun i : Fin s => v.get i := by
  obtain ⟨w, V, at_, U, W, h1, h2, hW, s3, h3, e3, sq, eq⟩ := generalizedEig_mat he.orth h sa ha sb hb
  obtain ⟨lw, sV, oV, dV⟩ := he s b w V sb hb h1
  obtain ⟨lv, sU, oU, dU⟩ := he s at_ v U s3 h3 h2
  have hw : ∀ i : Fin s, (gramFloor : ℝ) ≤ w.get i := by
    intro i
    have g1 := hf fun k => toMat s s V k i
    have g2 : (fun k => toMat s s V k i) ⬝ᵥ (fun k => toMat s s V k i) = 1 := by
      have := congrFun (congrFun oV i) i
      rw [Matrix.one_apply_eq] at this
      rw [← this, Matrix.mul_apply]; rfl
    have g3 : (fun k => toMat s s V k i) ⬝ᵥ (toMat s s b *ᵥ fun k => toMat s s V k i) = w.get i := by
      have := congrFun (congrFun dV i) i
      rw [Matrix.diagonal_apply_eq] at this
      rw [← this, Matrix.mul_assoc, Matrix.mul_apply]; rfl
    rwa [g2, g3, mul_one] at g1
  have hWB : Wᵀ * toMat s s b * W = 1 := by
    rw [hW, Matrix.transpose_mul, Matrix.diagonal_transpose]
    calc diagonal (fun i : Fin s => gramScale (w.get i)) * (toMat s s V)ᵀ * toMat s s b *
          (toMat s s V * diagonal fun i : Fin s => gramScale (w.get i))
        = diagonal (fun i : Fin s => gramScale (w.get i)) * ((toMat s s V)ᵀ * toMat s s b * toMat s s V) *
          diagonal (fun i : Fin s => gramScale (w.get i)) := by simp only [Matrix.mul_assoc]
      _ = 1 := by
        rw [dV, Matrix.diagonal_mul_diagonal, Matrix.diagonal_mul_diagonal, ← Matrix.diagonal_one]
        congr 1
        funext i
        have := (gramScale_spec (hw i)).2
        rw [← this]; ring
  refine ⟨lv, sq, ?_, ?_⟩
  · rw [eq, Matrix.transpose_mul]
    calc (toMat s s U)ᵀ * Wᵀ * toMat s s b * (W * toMat s s U)
        = (toMat s s U)ᵀ * (Wᵀ * toMat s s b * W) * toMat s s U := by simp only [Matrix.mul_assoc]
      _ = 1 := by rw [hWB, Matrix.mul_one, oU]
  · rw [eq, Matrix.transpose_mul, ← dU, e3]
    simp only [Matrix.mul_assoc]

/-- **C107**: if the eigenvalues of a symmetric matrix are distinct and no eigenvector has a zero first
component, all exact eigensolvers give the same result of `sorted_eig`: the sorted eigenvalues, and the
eigenvectors of norm one with a positive first component. -/
theorem C107_deterministic {s size : Nat} {eig : EigSolver ℝ} (he : EigExact eig) {a : Arr2 ℝ}
    (sa : HasShape a s s) (ha : (toMat s s a).IsSymm) {v : Arr1 ℝ} {q : Arr2 ℝ} (h : eig a = .ok (v, q))
    {d : Fin s → ℝ} {Q : Matrix (Fin s) (Fin s) ℝ} (hD : Distinct (toMat s s a) 1 d Q) (hs : 1 ≤ s)
    (hsize : size ≤ s) {order : Order} {ρ : Equiv.Perm (Fin s)} (hρ : Ordered order fun j => d (ρ j)) :
    ∃ (vals : Arr1 ℝ) (vecs : Arr2 ℝ),
      sortedEig eig a none size order = .ok (vals, vecs) ∧ vals.len = size ∧ HasShape vecs s size ∧
      (∀ j : Fin size, vals.get j = d (ρ (Fin.castLE hsize j))) ∧
      ∀ (i : Fin s) (j : Fin size), vecs.get i j = positive Q hs i (ρ (Fin.castLE hsize j)) := by
  obtain ⟨lv, sq, oq, dq⟩ := he s a v q sa ha h
  obtain ⟨vals, vecs, ρ', g1, g2, g3, g4, g5, g6⟩ := sortedEig_determined (b := none) (B := 1) ⟨h, lv, sq⟩
    Matrix.isSymm_one (by rw [Matrix.mul_one]; exact oq) dq hD hs hsize order
  obtain rfl := ordered_perm_unique hD.inj hρ g4
  exact ⟨vals, vecs, g1, g2, g3, g5, g6⟩

/-- **C107** for the generalized problem, if the threshold of `generalized_eig` has no effect. -/
theorem C107_deterministic_generalized {s size : Nat} {eig : EigSolver ℝ} (he : EigExact eig) {a b : Arr2 ℝ}
    (sa : HasShape a s s) (ha : (toMat s s a).IsSymm) (sb : HasShape b s s) (hb : (toMat s s b).IsSymm)
    (hf : AboveFloor (toMat s s b)) {v : Arr1 ℝ} {q : Arr2 ℝ} (h : generalizedEig eig a b = .ok (v, q))
    {d : Fin s → ℝ} {Q : Matrix (Fin s) (Fin s) ℝ} (hD : Distinct (toMat s s a) (toMat s s b) d Q) (hs : 1 ≤ s)
    (hsize : size ≤ s) {order : Order} {ρ : Equiv.Perm (Fin s)} (hρ : Ordered order fun j => d (ρ j)) :
    ∃ (vals : Arr1 ℝ) (vecs : Arr2 ℝ),
      sortedEig eig a (some b) size order = .ok (vals, vecs) ∧ vals.len = size ∧ HasShape vecs s size ∧
      (∀ j : Fin size, vals.get j = d (ρ (Fin.castLE hsize j))) ∧
      ∀ (i : Fin s) (j : Fin size), vecs.get i j = positive Q hs i (ρ (Fin.castLE hsize j)) := by
  obtain ⟨lv, sq, oq, dq⟩ := generalizedEig_exact he h sa ha sb hb hf
  obtain ⟨vals, vecs, ρ', g1, g2, g3, g4, g5, g6⟩ := sortedEig_determined (b := some b) ⟨h, lv, sq⟩
    hb oq dq hD hs hsize order
  obtain rfl := ordered_perm_unique hD.inj hρ g4
  exact ⟨vals, vecs, g1, g2, g3, g5, g6⟩

theorem exactEig_exact : EigExact exactEig := fun _ _ _ _ sa ha h => exactEig_spec sa ha h

/-- `[[2, 1], [1, 2]]` has the eigenvalues `3` and `1`, with eigenvectors whose first component is not zero. -/
theorem distinct_two : Distinct (toMat 2 2 (ofRows 2 2 [[2, 1], [1, 2]] : Arr2 ℝ)) 1 ![3, 1]
    !![1 / √2, 1 / √2; 1 / √2, -(1 / √2)] := by
  have h2 : (√2)⁻¹ * (√2)⁻¹ = (1 / 2 : ℝ) := by
    rw [← mul_inv, Real.mul_self_sqrt (by norm_num)]; norm_num
  refine ⟨?_, ?_, ?_, ?_⟩
  · ext i j
    fin_cases i <;> fin_cases j <;> simp [Matrix.mul_apply, Fin.sum_univ_two, h2] <;> norm_num
  · ext i j
    fin_cases i <;> fin_cases j <;>
      simp [Matrix.mul_apply, Fin.sum_univ_two, toMat, ofRows, Matrix.diagonal] <;> nlinarith [h2]
  · intro i j hij
    fin_cases i <;> fin_cases j <;> simp at hij ⊢
  · intro h j
    fin_cases j <;> simp

/-- The hypotheses of `C107_deterministic` are met: `sorted_eig` of `[[2, 1], [1, 2]]` with an exact
eigensolver returns `1` and `(1, -1) / √2` first, in ascending order. -/
example : ∃ (vals : Arr1 ℝ) (vecs : Arr2 ℝ),
    sortedEig exactEig (ofRows 2 2 [[2, 1], [1, 2]]) none 1 .smallest = .ok (vals, vecs) ∧ vals.get 0 = 1 ∧
      vecs.get 0 0 = 1 / √2 ∧ vecs.get 1 0 = -(1 / √2) := by
  obtain ⟨v, q, h, -⟩ := exactEig_ok (ofRows 2 2 [[2, 1], [1, 2]])
  obtain ⟨vals, vecs, h1, -, -, h2, h3⟩ := C107_deterministic exactEig_exact (s := 2) (size := 1)
    (order := .smallest) (ρ := Equiv.swap 0 1) ⟨rfl, rfl⟩
    (by ext i j; fin_cases i <;> fin_cases j <;> rfl) h distinct_two (by norm_num) (by norm_num)
    (by intro i j hij; fin_cases i <;> fin_cases j <;> simp_all)
  refine ⟨vals, vecs, h1, ?_, ?_, ?_⟩
  · have := h2 0
    simpa using this
  · have := h3 0 0
    simpa [positive, not_lt.2 (Real.sqrt_nonneg 2)] using this
  · have := h3 1 0
    simpa [positive, not_lt.2 (Real.sqrt_nonneg 2)] using this

/-- Two eigensolvers which differ by the sign of the second vector, the first component of which is zero: both
are exact for the identity matrix, but `sorted_eig` returns different vectors. -/
example : ∃ (eig eig' : EigSolver ℝ) (a : Arr2 ℝ) (vals vals' : Arr1 ℝ) (vecs vecs' : Arr2 ℝ),
    sortedEig eig a none 2 .smallest = .ok (vals, vecs) ∧ sortedEig eig' a none 2 .smallest = .ok (vals', vecs') ∧
    vecs.get 1 1 = 1 ∧ vecs'.get 1 1 = -1 := by
  let v : Arr1 ℝ := ⟨2, fun i => i⟩
  let q : ℝ → Arr2 ℝ := fun e => ofRows 2 2 [[1, 0], [0, e]]
  have key : ∀ e : ℝ, ∃ vals vecs, sortedEig (fun _ => .ok (v, q e)) (q 1) none 2 .smallest = .ok (vals, vecs) ∧
      vecs.get 1 1 = e := by
    intro e
    obtain ⟨vals, vecs, σ, h1, h2, h3⟩ := C107_zero (s := 2) (size := 2) (eig := fun _ => .ok (v, q e)) (a := q 1)
      (b := none) (v := v) (q := q e) ⟨rfl, rfl, rfl, rfl⟩ (by norm_num) le_rfl .smallest
    have hσ : σ 1 = 1 := by
      have g := h2.sorted 0 1 (by decide)
      have g1 : (σ 0 : Nat) ≤ (σ 1 : Nat) := by
        have g2 : ((σ 0 : Nat) : ℝ) ≤ ((σ 1 : Nat) : ℝ) := by simpa [InOrder, v] using g
        exact_mod_cast g2
      have g3 : σ 0 ≠ σ 1 := fun hc => absurd (σ.injective hc) (by decide)
      have g4 : (σ 0 : Nat) ≠ (σ 1 : Nat) := fun hc => g3 (Fin.ext hc)
      have := (σ 1).2
      exact Fin.ext (by simp; omega)
    refine ⟨vals, vecs, h1, ?_⟩
    have h4 := h3 1 (by
      have : Fin.castLE (le_refl 2) (1 : Fin 2) = 1 := rfl
      rw [this, hσ]; simp [q, ofRows]) 1 (by norm_num)
    have e1 : Fin.castLE (le_refl 2) (1 : Fin 2) = 1 := rfl
    rw [e1, hσ] at h4
    simpa [q, ofRows] using h4
  obtain ⟨vals, vecs, h1, h2⟩ := key 1
  obtain ⟨vals', vecs', h1', h2'⟩ := key (-1)
  exact ⟨_, _, q 1, vals, vals', vecs, vecs', h1, h1', h2, h2'⟩

/-- The hypotheses of `C107_signs_float` are met by solvers for the identity matrix, with doubles. -/
example : ∃ (eig eig' : EigSolver (Flt Rounding.binary64)) (a : Arr2 (Flt Rounding.binary64))
    (v : Arr1 (Flt Rounding.binary64)) (q q' : Arr2 (Flt Rounding.binary64)), InnerResult 2 eig a none v q ∧
    InnerResult 2 eig' a none v q' ∧ NaNFree v ∧
    ∀ i j, i < 2 → j < 2 → q'.get i j = if j == 1 then -q.get i j else q.get i j := by
  refine ⟨fun a => .ok (⟨2, fun _ => 1⟩, a),
    fun a => .ok (⟨2, fun _ => 1⟩, ⟨2, 2, fun i j => if j == 1 then -a.get i j else a.get i j⟩),
    ⟨2, 2, fun i j => if i = j then 1 else 0⟩, _, _, _, ⟨rfl, rfl, rfl, rfl⟩, ⟨rfl, rfl, rfl, rfl⟩, ?_, fun i j _ _ => rfl⟩
  intro i _
  change Flt.le (Flt.fin false 1) (Flt.fin false 1) = true
  simp [Flt.le]

end LinfaLinalg
