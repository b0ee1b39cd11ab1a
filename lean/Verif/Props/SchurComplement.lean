import Verif.Props.Blocks
import Mathlib.Data.Matrix.Block
import Mathlib.Logic.Equiv.Fin.Basic

/-! # C138: the Cholesky factor in parts

C100 is about the leading block of the factor. The rest of the factor is the factor of what remains of the matrix after the
first unknowns have been eliminated (the Schur complement). In exact arithmetic. -/

namespace LinfaLinalg

open Matrix

/-- The `r × c` block of `a` with upper left corner `(i0, j0)`. -/
def blockAt (a : Arr2 ℝ) (i0 j0 r c : Nat) : Arr2 ℝ := ⟨r, c, fun i j => a.get (i0 + i) (j0 + j)⟩

section
variable {p q : Nat}

theorem toMat_blocks (a : Arr2 ℝ) : (toMat (p + q) (p + q) a).submatrix finSumFinEquiv finSumFinEquiv =
    fromBlocks (toMat p p a) (toMat p q (blockAt a 0 p p q)) (toMat q p (blockAt a p 0 q p)) (toMat q q (blockAt a p p q q)) := by
  ext i j
  rcases i with i | i <;> rcases j with j | j <;> simp [blockAt, fromBlocks]

theorem symm_blocks {a : Arr2 ℝ} (hs : (toMat (p + q) (p + q) a).IsSymm) : (toMat p p a).IsSymm ∧
    (toMat p q (blockAt a 0 p p q))ᵀ = toMat q p (blockAt a p 0 q p) ∧ (toMat q q (blockAt a p p q q)).IsSymm := by
  have h : ∀ i j, i < p + q → j < p + q → a.get i j = a.get j i := fun i j hi hj => by
    have := congrFun (congrFun hs ⟨j, hj⟩) ⟨i, hi⟩
    simpa using this
  refine ⟨?_, ?_, ?_⟩ <;> ext i j <;> simp only [transpose_apply, toMat_apply, blockAt] <;>
    exact h _ _ (by omega) (by omega)

theorem lower_blocks {l : Arr2 ℝ} (h : LowerPos (toMat (p + q) (p + q) l)) : LowerPos (toMat p p l) ∧
    toMat p q (blockAt l 0 p p q) = 0 ∧ LowerPos (toMat q q (blockAt l p p q q)) := by
  obtain ⟨h1, h2⟩ := h
  have h3 : ∀ i j, i < j → j < p + q → l.get i j = 0 := fun i j hij hj => h1 ⟨i, by omega⟩ ⟨j, hj⟩ hij
  have h4 : ∀ i, i < p + q → 0 < l.get i i := fun i hi => h2 ⟨i, hi⟩
  refine ⟨⟨fun i j hij => h3 i j hij (by omega), fun i => h4 i (by omega)⟩, ?_,
    ⟨fun i j hij => h3 _ _ (Nat.add_lt_add_left hij _) (by omega), fun i => h4 _ (by omega)⟩⟩
  ext i j
  exact h3 _ _ (by omega) (by omega)

theorem unit_cancel {p q : Nat} {M : Matrix (Fin p) (Fin p) ℝ} (h : IsUnit M) {X Y : Matrix (Fin p) (Fin q) ℝ}
    (e : M * X = M * Y) : X = Y := by
  have hd : IsUnit M.det := (isUnit_iff_isUnit_det _).1 h
  calc X = M⁻¹ * (M * X) := by rw [← Matrix.mul_assoc, nonsing_inv_mul _ hd, Matrix.one_mul]
    _ = M⁻¹ * (M * Y) := by rw [e]
    _ = Y := by rw [← Matrix.mul_assoc, nonsing_inv_mul _ hd, Matrix.one_mul]

/-- The equations between the blocks. -/
theorem factor_blocks {a l : Arr2 ℝ} (hl : LowerPos (toMat (p + q) (p + q) l))
    (h : toMat (p + q) (p + q) l * (toMat (p + q) (p + q) l)ᵀ = toMat (p + q) (p + q) a) :
    toMat p p a = toMat p p l * (toMat p p l)ᵀ ∧
    toMat p q (blockAt a 0 p p q) = toMat p p l * (toMat q p (blockAt l p 0 q p))ᵀ ∧
    toMat q p (blockAt a p 0 q p) = toMat q p (blockAt l p 0 q p) * (toMat p p l)ᵀ ∧
    toMat q q (blockAt a p p q q) = toMat q p (blockAt l p 0 q p) * (toMat q p (blockAt l p 0 q p))ᵀ +
      toMat q q (blockAt l p p q q) * (toMat q q (blockAt l p p q q))ᵀ := by
  have e := congrArg (fun M => M.submatrix (finSumFinEquiv (m := p) (n := q)) (finSumFinEquiv (m := p) (n := q))) h
  rw [← submatrix_mul_equiv _ _ _ finSumFinEquiv, ← transpose_submatrix, toMat_blocks, toMat_blocks,
    (lower_blocks hl).2.1, fromBlocks_transpose, fromBlocks_multiply, fromBlocks_inj] at e
  simp only [transpose_zero, Matrix.mul_zero, Matrix.zero_mul, add_zero] at e
  exact ⟨e.1.symm, e.2.1.symm, e.2.2.1.symm, e.2.2.2.symm⟩

/-- **C138, elimination**: let the first `p` unknowns be eliminated with `solvec`: `X` solves `A₁₁ X = A₁₂`, and `g` is
`A₂₂ - A₂₁ X`. Then `cholesky` accepts the symmetric matrix if and only if it accepts its leading block and `g`, and the factor
of `g` is the trailing block of the factor of the matrix. -/
theorem C138_schur (a g x : Arr2 ℝ) (ha : HasShape a (p + q) (p + q)) (hs : (toMat (p + q) (p + q) a).IsSymm)
    (hg : HasShape g q q) (hx : solvec (leadBlock a p) (blockAt a 0 p p q) = .ok x)
    (eg : toMat q q g = toMat q q (blockAt a p p q q) - toMat q p (blockAt a p 0 q p) * toMat p q x) :
    ((∃ l, cholesky a = .ok l) ↔ ∃ l', cholesky g = .ok l') ∧
    ∀ l, cholesky a = .ok l → ∃ l', cholesky g = .ok l' ∧ HasShape l' q q ∧
      ∀ i j, i < q → j < q → l'.get i j = l.get (p + i) (p + j) := by
  obtain ⟨s1, s2, s3⟩ := symm_blocks hs
  have hpd : SymPosDef (toMat p p a) := by
    by_contra hn
    have := C13_solvec_not_posDef (n := p) (leadBlock a p) (blockAt a 0 p p q) ⟨rfl, rfl⟩ s1 hn
    rw [this] at hx
    cases hx
  obtain ⟨x', hx', sx, ex, -⟩ := C13_solvec (n := p) (m := q) (leadBlock a p) (blockAt a 0 p p q) ⟨rfl, rfl⟩ ⟨rfl, rfl⟩ hpd
  rw [hx] at hx'
  cases hx'
  have ex : toMat p p a * toMat p q x = toMat p q (blockAt a 0 p p q) := ex
  have hfwd : ∀ l, cholesky a = .ok l → ∃ l', cholesky g = .ok l' ∧ HasShape l' q q ∧
      ∀ i j, i < q → j < q → l'.get i j = l.get (p + i) (p + j) := by
    intro l hl
    obtain ⟨-, hlow, he⟩ := C08_cholesky_factor a l ha hs hl
    obtain ⟨b1, b2, b3, b4⟩ := factor_blocks hlow he
    obtain ⟨l1, l2, l3⟩ := lower_blocks hlow
    have hX : (toMat p p l)ᵀ * toMat p q x = (toMat q p (blockAt l p 0 q p))ᵀ := by
      rw [b1, b2, Matrix.mul_assoc] at ex
      exact unit_cancel l1.isUnit ex
    have hS : toMat q q (blockAt l p p q q) * (toMat q q (blockAt l p p q q))ᵀ = toMat q q g := by
      rw [eg, b4, b3, Matrix.mul_assoc, hX]
      abel
    obtain ⟨l', hl', e'⟩ := C12_cholesky_unique g hg _ l3 hS
    refine ⟨l', hl', (C08_cholesky_factor g l' hg (hS ▸ l3.symPosDef.1) hl').1, fun i j hi hj => ?_⟩
    have := congrFun (congrFun e' ⟨i, hi⟩) ⟨j, hj⟩
    simpa [blockAt] using this
  refine ⟨⟨fun ⟨l, hl⟩ => ?_, fun ⟨l', hl'⟩ => ?_⟩, hfwd⟩
  · obtain ⟨l', h, -⟩ := hfwd l hl
    exact ⟨l', h⟩
  · -- put the factor together
    obtain ⟨l1, hl1⟩ := (C09_cholesky_iff_posDef (leadBlock a p) ⟨rfl, rfl⟩ s1).1.2 hpd
    obtain ⟨-, w1, f1⟩ := C08_cholesky_factor (n := p) (leadBlock a p) l1 ⟨rfl, rfl⟩ s1 hl1
    have f1 : toMat p p l1 * (toMat p p l1)ᵀ = toMat p p a := f1
    have hXs : (toMat q p (blockAt a p 0 q p) * toMat p q x).IsSymm := by
      have : toMat q p (blockAt a p 0 q p) = (toMat p q x)ᵀ * toMat p p a := by
        rw [← s2, ← ex, transpose_mul, s1]
      rw [this]
      unfold Matrix.IsSymm
      rw [transpose_mul, transpose_mul, transpose_transpose, s1, Matrix.mul_assoc]
    have sg : (toMat q q g).IsSymm := by rw [eg]; exact s3.sub hXs
    obtain ⟨-, w2, f2⟩ := C08_cholesky_factor g l' hg sg hl'
    set L21 : Matrix (Fin q) (Fin p) ℝ := (toMat p q x)ᵀ * toMat p p l1 with hL21
    set K : Matrix (Fin (p + q)) (Fin (p + q)) ℝ :=
      (fromBlocks (toMat p p l1) 0 L21 (toMat q q l')).submatrix finSumFinEquiv.symm finSumFinEquiv.symm with hK
    have hKA : K * Kᵀ = toMat (p + q) (p + q) a := by
      have h1 : (toMat (p + q) (p + q) a) = (fromBlocks (toMat p p a) (toMat p q (blockAt a 0 p p q))
          (toMat q p (blockAt a p 0 q p)) (toMat q q (blockAt a p p q q))).submatrix finSumFinEquiv.symm finSumFinEquiv.symm := by
        rw [← toMat_blocks]
        simp
      rw [h1, hK, transpose_submatrix, submatrix_mul_equiv, fromBlocks_transpose, fromBlocks_multiply]
      congr 1
      rw [fromBlocks_inj]
      simp only [transpose_zero, Matrix.mul_zero, Matrix.zero_mul, add_zero]
      have hx2 : toMat p p l1 * L21ᵀ = toMat p q (blockAt a 0 p p q) := by
        rw [hL21, transpose_mul, transpose_transpose, ← Matrix.mul_assoc, f1, ex]
      refine ⟨f1, hx2, ?_, ?_⟩
      · rw [← s2, ← hx2, transpose_mul, transpose_transpose]
      · rw [f2, eg, ← s2, ← hx2, hL21]
        simp only [transpose_mul, transpose_transpose, Matrix.mul_assoc]
        abel
    have hKl : LowerPos K := by
      constructor
      · intro i j hij
        rw [hK, submatrix_apply]
        obtain ⟨i', rfl⟩ := (finSumFinEquiv (m := p) (n := q)).surjective i
        obtain ⟨j', rfl⟩ := (finSumFinEquiv (m := p) (n := q)).surjective j
        rw [Equiv.symm_apply_apply, Equiv.symm_apply_apply]
        rcases i' with i | i <;> rcases j' with j | j
        · exact w1.1 i j (by rw [Fin.lt_def] at hij ⊢; simpa using hij)
        · rfl
        · rw [Fin.lt_def] at hij
          simp at hij
          omega
        · exact w2.1 i j (by rw [Fin.lt_def] at hij ⊢; simpa using hij)
      · intro i
        rw [hK, submatrix_apply]
        obtain ⟨i', rfl⟩ := (finSumFinEquiv (m := p) (n := q)).surjective i
        rw [Equiv.symm_apply_apply]
        rcases i' with i | i
        · exact w1.2 i
        · exact w2.2 i
    obtain ⟨l, hl, -⟩ := C12_cholesky_unique a ha K hKl hKA
    exact ⟨l, hl⟩

/-- **C138, inverse**: the trailing block of the inverse computed by `invc` is the inverse of `g`. -/
theorem C138_inverse (a g x y : Arr2 ℝ) (ha : HasShape a (p + q) (p + q)) (hs : (toMat (p + q) (p + q) a).IsSymm)
    (hg : HasShape g q q) (hx : solvec (leadBlock a p) (blockAt a 0 p p q) = .ok x)
    (eg : toMat q q g = toMat q q (blockAt a p p q q) - toMat q p (blockAt a p 0 q p) * toMat p q x)
    (hy : invc a = .ok y) :
    ∃ z, invc g = .ok z ∧ HasShape z q q ∧ ∀ i j, i < q → j < q → z.get i j = y.get (p + i) (p + j) := by
  obtain ⟨s1, s2, s3⟩ := symm_blocks hs
  have hpdA : SymPosDef (toMat (p + q) (p + q) a) := by
    by_contra hn
    have := C13_solvec_not_posDef a (Arr2.eye a.nr a.nr) ha hs hn
    unfold invc at hy
    rw [this] at hy
    cases hy
  have hpd : SymPosDef (toMat p p a) := by
    by_contra hn
    have := C13_solvec_not_posDef (n := p) (leadBlock a p) (blockAt a 0 p p q) ⟨rfl, rfl⟩ s1 hn
    rw [this] at hx
    cases hx
  obtain ⟨x', hx', sx, ex, -⟩ := C13_solvec (n := p) (m := q) (leadBlock a p) (blockAt a 0 p p q) ⟨rfl, rfl⟩ ⟨rfl, rfl⟩ hpd
  rw [hx] at hx'
  cases hx'
  have ex : toMat p p a * toMat p q x = toMat p q (blockAt a 0 p p q) := ex
  obtain ⟨l, hl⟩ := (C09_cholesky_iff_posDef a ha hs).1.2 hpdA
  obtain ⟨l', hl', -⟩ := (C138_schur a g x ha hs hg hx eg).2 l hl
  obtain ⟨l1, hl1⟩ := (C09_cholesky_iff_posDef (leadBlock a p) ⟨rfl, rfl⟩ s1).1.2 hpd
  obtain ⟨-, w1, f1⟩ := C08_cholesky_factor (leadBlock a p) l1 ⟨rfl, rfl⟩ s1 hl1
  have hu : IsUnit (toMat p p a) := by
    rw [show toMat p p a = toMat p p l1 * (toMat p p l1)ᵀ from f1.symm]
    exact w1.isUnit.mul ((isUnit_transpose _).2 w1.isUnit)
  have hXs : (toMat q p (blockAt a p 0 q p) * toMat p q x).IsSymm := by
    have : toMat q p (blockAt a p 0 q p) = (toMat p q x)ᵀ * toMat p p a := by
      rw [← s2, ← ex, transpose_mul, s1]
    rw [this]
    unfold Matrix.IsSymm
    rw [transpose_mul, transpose_mul, transpose_transpose, s1, Matrix.mul_assoc]
  have sg : (toMat q q g).IsSymm := by rw [eg]; exact s3.sub hXs
  have hpdg := (C09_cholesky_iff_posDef g hg sg).1.1 ⟨l', hl'⟩
  obtain ⟨y', hy', -, ey, -⟩ := C14_invc a ha hpdA
  rw [hy] at hy'
  cases hy'
  obtain ⟨z, hz, sz, ez, ez'⟩ := C14_invc g hg hpdg
  refine ⟨z, hz, sz, fun i j hi hj => ?_⟩
  have e := congrArg (fun M => M.submatrix (finSumFinEquiv (m := p) (n := q)) (finSumFinEquiv (m := p) (n := q))) ey
  rw [← submatrix_mul_equiv _ _ _ finSumFinEquiv, toMat_blocks, toMat_blocks, submatrix_one_equiv, ← fromBlocks_one,
    fromBlocks_multiply, fromBlocks_inj] at e
  obtain ⟨-, e2, -, e4⟩ := e
  have h1 : toMat p q (blockAt y 0 p p q) = -(toMat p q x * toMat q q (blockAt y p p q q)) := by
    refine unit_cancel hu ?_
    rw [← ex, Matrix.mul_assoc] at e2
    rw [Matrix.mul_neg]
    exact eq_neg_of_add_eq_zero_left e2
  have h2 : toMat q q g * toMat q q (blockAt y p p q q) = 1 := by
    rw [eg, Matrix.sub_mul, ← e4, h1, Matrix.mul_neg, Matrix.mul_assoc]
    abel
  have h3 : toMat q q z = toMat q q (blockAt y p p q q) := by
    calc toMat q q z = toMat q q z * (toMat q q g * toMat q q (blockAt y p p q q)) := by rw [h2, Matrix.mul_one]
      _ = _ := by rw [← Matrix.mul_assoc, ez', Matrix.one_mul]
  have := congrFun (congrFun h3 ⟨i, hi⟩) ⟨j, hj⟩
  simpa [blockAt] using this

/-- **C138, pivots**: the square of the diagonal entry `k` of the factor is the smallest value of the quadratic form `xᵀ A x`
among the vectors with `x_k = 1` and `x_j = 0` for `j > k`. -/
theorem C138_pivot {n : Nat} (a l : Arr2 ℝ) (ha : HasShape a n n) (hs : (toMat n n a).IsSymm) (hl : cholesky a = .ok l)
    (k : Fin n) :
    (∀ x : Fin n → ℝ, x k = 1 → (∀ j, k < j → x j = 0) → l.get k k ^ 2 ≤ x ⬝ᵥ toMat n n a *ᵥ x) ∧
    ∃ x : Fin n → ℝ, x k = 1 ∧ (∀ j, k < j → x j = 0) ∧ l.get k k ^ 2 = x ⬝ᵥ toMat n n a *ᵥ x := by
  obtain ⟨-, hlow, he⟩ := C08_cholesky_factor a l ha hs hl
  set L := toMat n n l with hL
  have hq : ∀ x : Fin n → ℝ, x ⬝ᵥ toMat n n a *ᵥ x = Lᵀ *ᵥ x ⬝ᵥ Lᵀ *ᵥ x := fun x => by
    rw [← he, ← mulVec_mulVec, dotProduct_mulVec, ← mulVec_transpose]
  have hk : ∀ x : Fin n → ℝ, x k = 1 → (∀ j, k < j → x j = 0) → (Lᵀ *ᵥ x) k = l.get k k := fun x h1 h2 => by
    rw [mulVec, dotProduct, Finset.sum_eq_single k]
    · rw [h1, mul_one]
      rfl
    · intro j _ hj
      rcases lt_or_gt_of_ne hj with h | h
      · rw [transpose_apply, hlow.1 j k h, zero_mul]
      · rw [h2 j h, mul_zero]
    · simp
  refine ⟨fun x h1 h2 => ?_, ?_⟩
  · rw [hq, dotProduct, ← hk x h1 h2]
    refine (le_of_eq (sq _)).trans (Finset.single_le_sum (f := fun i => (Lᵀ *ᵥ x) i * (Lᵀ *ᵥ x) i)
      (fun i _ => mul_self_nonneg _) (Finset.mem_univ k))
  · have hd : IsUnit Lᵀ.det := (isUnit_iff_isUnit_det _).1 ((isUnit_transpose _).2 hlow.isUnit)
    set x := (Lᵀ)⁻¹ *ᵥ Pi.single k (l.get k k) with hx
    have h0 : Lᵀ *ᵥ x = Pi.single k (l.get k k) := by
      rw [hx, mulVec_mulVec, mul_nonsing_inv _ hd, one_mulVec]
    have hz : ∀ (d : Nat) (j : Fin n), n - 1 - (j : Nat) = d → k < j → x j = 0 := by
      intro d
      induction d using Nat.strong_induction_on with
      | _ d ih =>
        intro j hd hj
        have h1 := congrFun h0 j
        rw [Pi.single_eq_of_ne hj.ne', mulVec, dotProduct, Finset.sum_eq_single j] at h1
        · exact (mul_eq_zero.1 h1).resolve_left (hlow.2 j).ne'
        · intro i _ hi
          rcases lt_or_gt_of_ne hi with h | h
          · rw [transpose_apply, hlow.1 i j h, zero_mul]
          · rw [ih (n - 1 - i) (by rw [Fin.lt_def] at h; omega) i rfl (hj.trans h), mul_zero]
        · simp
    have h2 : ∀ j, k < j → x j = 0 := fun j hj => hz _ j rfl hj
    have h1 : x k = 1 := by
      have h1 := congrFun h0 k
      rw [Pi.single_eq_same, mulVec, dotProduct, Finset.sum_eq_single k] at h1
      · have hp : 0 < l.get k k := hlow.2 k
        exact mul_left_cancel₀ hp.ne' (h1.trans (mul_one _).symm)
      · intro i _ hi
        rcases lt_or_gt_of_ne hi with h | h
        · rw [transpose_apply, hlow.1 i k h, zero_mul]
        · rw [h2 i h, mul_zero]
      · simp
    refine ⟨x, h1, h2, ?_⟩
    rw [hq, h0, single_dotProduct, Pi.single_eq_same, sq]

end

/-- The matrix `[[4, 2], [2, 5]]`: after the first unknown has been eliminated, `4` remains. -/
example : ∃ x l', solvec (leadBlock (ofRows 2 2 [[4, 2], [2, 5]] : Arr2 ℝ) 1) (blockAt (ofRows 2 2 [[4, 2], [2, 5]]) 0 1 1 1) =
      .ok x ∧ cholesky (ofRows 1 1 [[4]] : Arr2 ℝ) = .ok l' ∧ ∃ l, cholesky (ofRows 2 2 [[4, 2], [2, 5]] : Arr2 ℝ) = .ok l ∧
      l.get 1 1 = l'.get 0 0 := by
  have hs : (toMat (1 + 1) (1 + 1) (ofRows 2 2 [[4, 2], [2, 5]] : Arr2 ℝ)).IsSymm := by
    ext i j
    fin_cases i <;> fin_cases j <;> simp [ofRows]
  have h1 : SymPosDef (toMat 1 1 (leadBlock (ofRows 2 2 [[4, 2], [2, 5]] : Arr2 ℝ) 1)) := by
    refine ⟨by ext i j; fin_cases i; fin_cases j; rfl, fun x hx => ?_⟩
    have hx0 : x 0 ≠ 0 := fun h => hx (by funext i; fin_cases i; exact h)
    have : x ⬝ᵥ toMat 1 1 (leadBlock (ofRows 2 2 [[4, 2], [2, 5]] : Arr2 ℝ) 1) *ᵥ x = 4 * x 0 ^ 2 := by
      simp [dotProduct, mulVec, ofRows, leadBlock]
      ring
    rw [this]
    positivity
  obtain ⟨x, hx, sx, ex, -⟩ := C13_solvec (n := 1) (m := 1) _ (blockAt (ofRows 2 2 [[4, 2], [2, 5]]) 0 1 1 1) ⟨rfl, rfl⟩ ⟨rfl, rfl⟩ h1
  have x0 : x.get 0 0 = 1 / 2 := by
    have := congrFun (congrFun ex 0) 0
    simp [mul_apply, ofRows, leadBlock, blockAt] at this
    linarith
  have eg : toMat 1 1 (ofRows 1 1 [[4]] : Arr2 ℝ) = toMat 1 1 (blockAt (ofRows 2 2 [[4, 2], [2, 5]]) 1 1 1 1) -
      toMat 1 1 (blockAt (ofRows 2 2 [[4, 2], [2, 5]]) 1 0 1 1) * toMat 1 1 x := by
    ext i j
    fin_cases i; fin_cases j
    simp [mul_apply, ofRows, blockAt, x0]
    norm_num
  obtain ⟨l', hl', -⟩ := C12_cholesky_unique (n := 1) (ofRows 1 1 [[4]] : Arr2 ℝ) ⟨rfl, rfl⟩ (of fun _ _ => 2)
    ⟨fun i j h => absurd h (by fin_cases i; fin_cases j; simp), fun _ => by norm_num⟩ (by
      ext i j
      fin_cases i; fin_cases j
      simp [mul_apply, ofRows]
      norm_num)
  have hS := C138_schur (p := 1) (q := 1) (ofRows 2 2 [[4, 2], [2, 5]]) (ofRows 1 1 [[4]]) x ⟨rfl, rfl⟩ hs ⟨rfl, rfl⟩ hx eg
  obtain ⟨l, hl⟩ := hS.1.2 ⟨l', hl'⟩
  obtain ⟨l2, hl2, -, h3⟩ := hS.2 l hl
  rw [hl'] at hl2
  cases hl2
  exact ⟨x, l', hx, hl', l, hl, (h3 0 0 (by norm_num) (by norm_num)).symm⟩

end LinfaLinalg
