import Verif.Proofs.EighReal

/-! # `eigh` evaluated on concrete matrices -/

set_option linter.unusedSimpArgs false

namespace LinfaLinalg

open Matrix

/-- `sym_tridiagonal` of `[[1, 0, 0], [0, 0, f], [0, f, 1/2]]`. -/
theorem exTridiag (f : ℝ) (hf : 0 < f) (g : Nat → Nat → ℝ) (h00 : g 0 0 = 1) (h10 : g 1 0 = 0)
    (h20 : g 2 0 = 0) (h11 : g 1 1 = 0) (h21 : g 2 1 = f) (h22 : g 2 2 = 1 / 2) :
    ∃ t, symTridiagonal ⟨3, 3, g⟩ = .ok t ∧ t.diagMatrix.nr = 3 ∧ t.diagMatrix.nc = 3 ∧
      t.diagMatrix.get 0 0 = 1 ∧ t.diagMatrix.get 1 1 = 0 ∧ t.diagMatrix.get 2 2 = 1 / 2 ∧
      t.diagMatrix.get 1 0 = 0 ∧ t.diagMatrix.get 2 0 = 0 ∧ t.diagMatrix.get 2 1 = 1 ∧
      t.offDiagonal.len = 2 ∧ t.offDiagonal.get 0 = 0 ∧ t.offDiagonal.get 1 = -f := by
  have hs : (f + f) / (√(f * f + f * f) * √2) = 1 := by
    rw [← Real.sqrt_mul (by positivity), show (f * f + f * f) * 2 = (f + f) * (f + f) by ring,
      Real.sqrt_mul_self (by linarith), div_self (by linarith)]
  have h1 : ¬ f < 0 := by linarith
  unfold symTridiagonal
  rw [checkSquare_ok rfl]
  simp [forRange, List.range', loopM, tridiagStep, Arr2.colSlice, Arr2.slice, reflectionAxisMut,
    ok_bind, Arr1.dot, dotTo_eq, Finset.sum_range_succ, Arr1.idx, Arr1.idxSet, Arr1.upd, real_signum,
    Arr2.putCol, h00, h10, h20, h11, h21, h22, Arr1.zeros, Arr1.map, Arr1.slice, Arr1.put, matVecMul,
    rankOneUpdate, Arr2.put, hf.ne', hf.le, h1, abs_of_pos hf]
  rw [hs]
  norm_num

/-- `generate_q` of the same matrix. -/
theorem exQ (f : ℝ) (hf : 0 < f) (t : TridiagonalDecomp ℝ) (h1 : t.diagMatrix.nr = 3)
    (h2 : t.diagMatrix.nc = 3) (h10 : t.diagMatrix.get 1 0 = 0) (h20 : t.diagMatrix.get 2 0 = 0)
    (h21 : t.diagMatrix.get 2 1 = 1) (hl : t.offDiagonal.len = 2) (e0 : t.offDiagonal.get 0 = 0)
    (e1 : t.offDiagonal.get 1 = -f) :
    ∃ q, t.generateQ = .ok q ∧ HasShape q 3 3 ∧ toMat 3 3 q = 1 := by
  unfold TridiagonalDecomp.generateQ assembleQ
  simp [forRev, forRange, List.range', loopM, h1, h2, hl, e0, e1, Arr2.colSlice, Arr2.slice, ok_bind, Arr1.dot,
    reflectCols, dotTo_eq, Finset.sum_range_succ, Arr1.idx, Arr1.scaledAdd, Arr2.putCol, Arr2.put, Arr2.eye,
    h10, h20, h21, real_signum, hf, Arr2.map, HasShape]
  ext i j
  fin_cases i <;> fin_cases j <;> norm_num [h21]

/-- The main loop on the diagonals `(1, 0, 1/2)`, `(0, f)` with `f` a little above the deflation
threshold: one `2 × 2` block, for which the rotation is skipped. -/
theorem exLoop (f eps : ℝ) (h1 : eps / 2 < f) (h2 : f ≤ 3 / 4 * eps) (h3 : eps ≤ 1 / 4)
    (d o : Arr1 ℝ) (q : Arr2 ℝ) (hd : d.len = 3) (ho : o.len = 2)
    (d0 : d.get 0 = 1) (d1 : d.get 1 = 0) (d2 : d.get 2 = 1 / 2) (o0 : o.get 0 = 0)
    (o1 : o.get 1 = f) :
    ∃ off s e st l, delimitSubproblem d o 2 eps = .ok (off, s, e) ∧
      eigLoop eps 1 ⟨d, off, some q, s, e⟩ = .ok st ∧ st.q = some q ∧ st.diag.get 1 = l ∧
      1 / 2 ≤ l := by
  have hf : 0 < f := by linarith
  have heps : 0 ≤ eps := by linarith
  have hdel : delimitSubproblem d o 2 eps = .ok (o.upd 0 0, 1, 2) := by
    have e1 : eps * 2⁻¹ < f := by linarith
    simp [delimitSubproblem, delimitEnd, delimitStart, Arr1.at, Arr1.atm, hd, ho, d0, d1, d2, o0, o1,
      ok_bind, abs_of_pos hf, e1]
  have hc : compute2x2Eigvals 0 f f (1 / 2) = some (1 / 4 + √(f * f + 1 / 16), 1 / 4 - √(f * f + 1 / 16)) := by
    have : (0 : ℝ) ≤ f * f + 1 / 16 := by positivity
    simp only [compute2x2Eigvals, real_le, real_ofRat, real_sqrt, decide_eq_true_eq]
    push_cast
    norm_num
    intro h; exact absurd h (not_lt.2 this)
  have hsq : √(f * f + 1 / 16) ≤ 1 / 4 + 2 * f ^ 2 := by
    rw [Real.sqrt_le_left (by positivity)]
    nlinarith [sq_nonneg (f ^ 2)]
  have hsq' : 1 / 4 ≤ √(f * f + 1 / 16) := by
    apply Real.le_sqrt_of_sq_le
    nlinarith [mul_self_nonneg f]
  have hrot : GivensRotation.tryNew (1 / 4 + √(f * f + 1 / 16) - 1 / 2) f eps = none := by
    unfold GivensRotation.tryNew
    simp only [real_hypot, real_lt, decide_eq_true_eq]
    rw [if_neg]
    rw [not_lt, Real.sqrt_le_left heps]
    have e1 : 1 / 4 + √(f * f + 1 / 16) - 1 / 2 ≤ 2 * f ^ 2 := by linarith
    have e0 : 0 ≤ 1 / 4 + √(f * f + 1 / 16) - 1 / 2 := by linarith
    have e2 : 2 * f ^ 2 ≤ 3 / 8 * f := by nlinarith
    have e3 : f * f ≤ 9 / 16 * (eps * eps) := by nlinarith
    nlinarith
  generalize hX : √(f * f + 1 / 16) = X at *
  have hsh : EigShape 3 eps ⟨d, o.upd 0 0, none, 1, 2⟩ := by
    refine ⟨hd, ho, ?_, by simp, by simp, ?_⟩
    · intro x hx; simp at hx
    · intro _
      simp [bigOff, Arr1.upd, d1, d2, o1, abs_of_pos hf]
      linarith
  refine ⟨o.upd 0 0, 1, 2, ⟨(d.upd 1 (1 / 4 + X)).upd 2 (1 / 4 - X), o.upd 0 0, some q, 0, 0⟩,
    1 / 4 + X, hdel, ?_, rfl, ?_, by linarith⟩
  · have htwo : eig2x2 eps ⟨d, o.upd 0 0, some q, 1, 2⟩ =
        .ok ⟨(d.upd 1 (1 / 4 + X)).upd 2 (1 / 4 - X), o.upd 0 0, some q, 1, 1⟩ := by
      unfold eig2x2
      simp only [Arr1.idx, Arr1.upd, hd, ho, d1, d2, o1]
      norm_num [ok_bind]
      norm_num at hc hrot
      rw [hc]
      simp only [Arr1.idxSet, Arr1.upd, hd]
      norm_num [ok_bind]
      rw [hrot]
      rfl
    unfold eigLoop
    rw [if_neg (by simp)]
    unfold eigStep
    rw [if_neg (by simp)]
    simp only
    rw [if_neg (by simp), if_pos (by simp), htwo]
    simp only [ok_bind]
    have hdel2 : delimitSubproblem ((d.upd 1 (1 / 4 + X)).upd 2 (1 / 4 - X)) (o.upd 0 0) 1 eps =
        .ok (o.upd 0 0, 0, 0) := by
      have : ¬ eps * (|1 / 4 + X| + 1) < 0 := by
        rw [not_lt]; positivity
      simp only [delimitSubproblem, delimitEnd, Arr1.at, Arr1.upd, hd, ho, d0, ok_bind]
      norm_num [ok_bind]
      norm_num at this
      rw [if_neg (not_lt.2 this)]
      rfl
    rw [hdel2]
    rfl
  · simp [Arr1.upd]

/-- A `2 × 2` problem needs one iteration. -/
theorem eigLoop_two {eps : ℝ} {st : EigState ℝ} (h : EigShape 2 eps st) :
    ∃ st', eigLoop eps 1 st = .ok st' := by
  unfold eigLoop
  by_cases hne : st.end = st.start
  · rw [if_pos hne]; exact ⟨_, rfl⟩
  · rw [if_neg hne]
    have hlt := h.lt
    have hle := h.le
    have := wp_eigStep (E := fun _ => False) h hne (fun m => m.end = 0) ?_ ?_
    · obtain ⟨st', e, -, mid, hm, -, -, -, -, ds⟩ := succeeds_iff.1 this
      rw [e]
      simp only [ok_bind]
      have d1 := ds.le
      have d2 : st'.end = 0 := by omega
      have d3 := ds.zero d2
      unfold eigLoop
      rw [if_pos (by omega)]
      exact ⟨_, rfl⟩
    · intro hs
      rw [eig2x2_eq h hs]
      obtain ⟨l0, l1, hc, -⟩ := compute2x2_real (st.diag.get st.start) (st.off.get st.start)
        (st.diag.get (st.start + 1))
      rw [hc]
      simp only [wp_ok]
      omega
    · intro r e hs; omega

/-- `eigh` returns on every symmetric or non-symmetric `2 × 2` matrix. -/
theorem eigh_two (a : Arr2 ℝ) (ha : HasShape a 2 2) : ∃ r, eigh 1 a = .ok r := by
  obtain ⟨t, -, -, q, -, hev, -, -, h2⟩ := symmetricEig_cases 1 a true (NdFloat.epsilon : ℝ)
    (by rw [ha.1, ha.2]) (by rw [ha.1]; omega)
  obtain ⟨off, s, e, -, -, hsh, heq⟩ := h2 (by rw [ha.1]; omega)
  rw [ha.1] at hsh
  obtain ⟨st', hst⟩ := eigLoop_two hsh
  unfold eigh eighInto
  rw [heq, hst]
  simp only [ok_bind]
  cases hq : st'.q with
  | some q => exact ⟨_, rfl⟩
  | none =>
    have := symmetricEig_shape 1 a true (NdFloat.epsilon : ℝ) (by rw [ha.1, ha.2])
    rw [heq, hst] at this
    have h3 := this.2.2
    simp [hq] at h3

/-- `[[1, 0, 0], [0, 0, f], [0, f, 1/2]]` with `f` three quarters of the machine epsilon. -/
noncomputable def exA : Arr2 ℝ :=
  ofRows 3 3 [[1, 0, 0], [0, 0, 3 / 4 * (2 : ℝ)⁻¹ ^ 52], [0, 3 / 4 * (2 : ℝ)⁻¹ ^ 52, 1 / 2]]

theorem exEigh : ∃ vals vecs, eigh 1 exA = .ok (vals, vecs) ∧ toMat 3 3 vecs = 1 ∧
    1 / 2 ≤ vals.get 1 := by
  obtain ⟨f, hfd⟩ : ∃ f, f = 3 / 4 * (2 : ℝ)⁻¹ ^ 52 := ⟨_, rfl⟩
  have hf0 : 0 < f := by rw [hfd]; positivity
  have hf1 : f ≤ 1 := by rw [hfd]; norm_num
  have hA : exA = ofRows 3 3 [[1, 0, 0], [0, 0, f], [0, f, 1 / 2]] := by rw [exA, hfd]
  have hmax : exA.amax = 1 := by
    rw [hA]
    simp only [Arr2.amax, Arr2.toList, ofRows, List.range_succ, List.range_zero]
    simp [abs_of_pos hf0]
    rw [max_eq_left hf1, max_eq_left (by norm_num)]
  have hsd : exA.scaleDown exA.amax = ⟨3, 3, fun i j => exA.get i j / 1⟩ := by
    rw [hmax]
    unfold Arr2.scaleDown
    rw [if_neg (by simp)]
    rfl
  obtain ⟨t, ht, t1, t2, t3, t4, t5, t6, t7, t8, t9, t10, t11⟩ := exTridiag f hf0
    (fun i j => exA.get i j / 1) (by rw [hA]; simp [ofRows]) (by rw [hA]; simp [ofRows])
    (by rw [hA]; simp [ofRows]) (by rw [hA]; simp [ofRows]) (by rw [hA]; simp [ofRows])
    (by rw [hA]; simp [ofRows])
  obtain ⟨q, hq, sq, eq⟩ := exQ f hf0 t t1 t2 t6 t7 t8 t9 t10 t11
  obtain ⟨off, s, e, st, l, hdel, hloop, hsq, hl, hle⟩ := exLoop f (2⁻¹ ^ 52)
    (by rw [hfd]; norm_num) (by rw [hfd]) (by norm_num) t.intoDiagonals.1 t.intoDiagonals.2 q
    (by simp [TridiagonalDecomp.intoDiagonals, Arr2.diag, t1, t2]) t9 t3 t4 t5
    (by simp [TridiagonalDecomp.intoDiagonals, Arr1.map, t10])
    (by simp [TridiagonalDecomp.intoDiagonals, Arr1.map, t11, abs_of_pos hf0])
  refine ⟨st.diag.map fun x => x * 1, q, ?_, eq, ?_⟩
  · unfold eigh eighInto symmetricEig
    rw [checkSquare_ok (by rw [hA]; rfl)]
    simp only [ok_bind]
    rw [if_neg (by rw [hA]; simp [ofRows]), hsd, ht]
    simp only [ok_bind, if_true]
    rw [hq]
    simp only [ok_bind]
    rw [if_neg (by rw [hA]; simp [ofRows])]
    have : exA.nr - 1 = 2 := by rw [hA]; simp [ofRows]
    rw [this, real_epsilon, hdel]
    simp only [ok_bind]
    rw [hloop]
    simp only [ok_bind, hsq, hmax]
  · simp [Arr1.map, hl]; linarith

end LinfaLinalg
