import Verif.Proofs.EighTerm
import Verif.Props.Eigh

/-! # C70–C72: termination of `/repo/src/eigh.rs` in exact real arithmetic

`fuel` is the number of iterations the main loop of `symmetric_eig` is given. -/

set_option linter.unusedSectionVars false

namespace LinfaLinalg

open Matrix

section
variable {α : Type} [Zero α] [One α] [Add α] [Sub α] [Mul α] [Div α] [Neg α] [NdFloat α]

theorem eigLoop_mono {eps : α} {fuel fuel' : Nat} (hf : fuel ≤ fuel') {st r : EigState α}
    (h : eigLoop eps fuel st = .ok r) : eigLoop eps fuel' st = .ok r := by
  induction fuel generalizing fuel' st with
  | zero =>
    unfold eigLoop at h
    by_cases he : st.end = st.start
    · rw [if_pos he] at h
      cases fuel' <;> (unfold eigLoop; rw [if_pos he]; exact h)
    · rw [if_neg he] at h; exact absurd h (by simp)
  | succ k ih =>
    obtain ⟨m, rfl⟩ : ∃ m, fuel' = m + 1 := ⟨fuel' - 1, by omega⟩
    unfold eigLoop at h ⊢
    by_cases he : st.end = st.start
    · rw [if_pos he] at h ⊢; exact h
    · rw [if_neg he] at h ⊢
      cases hs : eigStep eps st with
      | error e => rw [hs, error_bind] at h; exact absurd h (by simp)
      | ok st' =>
        rw [hs, ok_bind] at h
        rw [ok_bind]
        exact ih (by omega) h

/-- More iterations do not change a result. -/
theorem symmetricEig_mono {a : Arr2 α} {ev : Bool} {eps : α} {fuel fuel' : Nat} (hf : fuel ≤ fuel')
    {r : Arr1 α × Option (Arr2 α)} (h : symmetricEig fuel a ev eps = .ok r) :
    symmetricEig fuel' a ev eps = .ok r := by
  unfold symmetricEig at h ⊢
  cases h1 : checkSquare a with
  | error e => rw [h1, error_bind] at h; exact absurd h (by simp)
  | ok dim =>
    rw [h1, ok_bind] at h
    rw [ok_bind]
    by_cases hd : dim < 1
    · rw [if_pos hd] at h ⊢; exact h
    · rw [if_neg hd] at h ⊢
      simp only at h ⊢
      cases h2 : symTridiagonal (a.scaleDown a.amax) with
      | error e => rw [h2, error_bind] at h; exact absurd h (by simp)
      | ok t =>
        rw [h2, ok_bind] at h
        rw [ok_bind]
        cases h3 : (if ev = true then (do let q ← t.generateQ; .ok (some q)) else .ok none :
            M (Option (Arr2 α))) with
        | error e => rw [h3, error_bind] at h; exact absurd h (by simp)
        | ok q =>
          rw [h3, ok_bind] at h
          rw [ok_bind]
          by_cases hd1 : dim = 1
          · rw [if_pos hd1] at h ⊢; exact h
          · rw [if_neg hd1] at h ⊢
            cases h4 : delimitSubproblem t.intoDiagonals.1 t.intoDiagonals.2 (dim - 1) eps with
            | error e => rw [h4, error_bind] at h; exact absurd h (by simp)
            | ok p =>
              rw [h4, ok_bind] at h
              rw [ok_bind]
              cases h5 : eigLoop eps fuel ⟨t.intoDiagonals.1, p.1, q, p.2.1, p.2.2⟩ with
              | error e => rw [h5, error_bind] at h; exact absurd h (by simp)
              | ok st =>
                rw [h5] at h
                rw [eigLoop_mono hf h5]
                exact h

/-- Once `eigh` has returned, it returns the same with more iterations, and so does `eigvalsh`. -/
theorem eigh_mono {a : Arr2 α} {fuel fuel' : Nat} (hf : fuel ≤ fuel') {r : Arr1 α × Arr2 α}
    (h : eigh fuel a = .ok r) : eigh fuel' a = .ok r ∧ eigvalsh fuel' a = .ok r.1 := by
  have h1 : eigh fuel' a = .ok r := by
    unfold eigh eighInto at h ⊢
    cases h2 : symmetricEig fuel a true (NdFloat.epsilon : α) with
    | error e => rw [h2, error_bind] at h; exact absurd h (by simp)
    | ok p =>
      rw [h2] at h
      rw [symmetricEig_mono hf h2]
      exact h
  exact ⟨h1, ((C27_eigvalsh_eq_eigh fuel' a).1 r.1).2 ⟨r.2, h1⟩⟩

end

theorem eigh_of_symmetricEig {n fuel : Nat} {a : Arr2 ℝ} (ha : HasShape a n n)
    (h : Succeeds (symmetricEig fuel a true (NdFloat.epsilon : ℝ)) (fun _ => True)) :
    ∃ r, eigh fuel a = .ok r := by
  obtain ⟨p, hp, -⟩ := succeeds_iff.1 h
  have := symmetricEig_shape fuel a true (NdFloat.epsilon : ℝ) (by rw [ha.1, ha.2])
  rw [hp] at this
  obtain ⟨v, q⟩ := p
  obtain ⟨Q, rfl⟩ := Option.isSome_iff_exists.1 this.2.2
  refine ⟨(v, Q), ?_⟩
  unfold eigh eighInto
  rw [hp, ok_bind]

/-- The scaling factor. -/
theorem scaleDown_factor {n : Nat} (a : Arr2 ℝ) (ha : HasShape a n n) (hn : 1 ≤ n) :
    ∃ κ : ℝ, 0 < κ ∧ toMat n n (a.scaleDown a.amax) = κ • toMat n n a := by
  obtain ⟨s1, s2, s3, s4⟩ := scaleDown_real a ha hn hn
  refine ⟨_, ?_, s4⟩
  have := amax_nonneg a (by rw [ha.1]; exact hn) (by rw [ha.2]; exact hn)
  split_ifs with h
  · norm_num
  · exact one_div_pos.2 (lt_of_le_of_ne this (Ne.symm h))

theorem eps_pos : (0 : ℝ) < NdFloat.epsilon := by rw [real_epsilon]; positivity

theorem qf_smul {n : Nat} (κ : ℝ) (A : Matrix (Fin n) (Fin n) ℝ) (x : Fin n → ℝ) :
    qf (κ • A) x = κ * qf A x := by
  unfold qf
  rw [Matrix.smul_mulVec, dotProduct_smul, smul_eq_mul]

/-- `eigh` of a semidefinite matrix, in terms of a bound on its tridiagonal form. -/
theorem eigh_terminates_aux {n : Nat} (a : Arr2 ℝ) (ha : HasShape a n n) (hn : 1 ≤ n)
    (hs : (toMat n n a).IsSymm) {s : ℝ} (hs1 : |s| = 1) :
    ∃ (κ : ℝ) (d e : Nat → ℝ), 0 < κ ∧
      (∀ x, ∃ y, y ⬝ᵥ y = x ⬝ᵥ x ∧ qf (tridiag n d e) x = κ * qf (toMat n n a) y) ∧
      ∀ c, 0 < c → PairBound n d e s c → ∀ K : Nat,
        (κ * frob (toMat n n a)) ^ 6 < ((2 : ℝ)⁻¹ ^ 52 * c) ^ 6 * 2 ^ K →
        ∃ r, eigh ((n - 1) * (K + 1)) a = .ok r := by
  obtain ⟨κ, hκ, hA0⟩ := scaleDown_factor a ha hn
  obtain ⟨-, -, s3, -⟩ := scaleDown_real a ha hn hn
  obtain ⟨d, e, Q, hQ, hT, hen⟩ := symmetricEig_enter a (eps := NdFloat.epsilon) eps_pos.le ha hn hs
  refine ⟨κ, d, e, hκ, ?_, ?_⟩
  · intro x
    refine ⟨Q *ᵥ x, ?_, ?_⟩
    · have := dot_conj (W := Qᵀ) (by rw [Matrix.transpose_transpose]; exact hQ) x x
      rwa [Matrix.transpose_transpose] at this
    · rw [← qf_smul, ← hA0, qf_conj hT, Matrix.mulVec_mulVec, hQ, Matrix.one_mulVec]
  · intro c hc hp K hK
    refine eigh_of_symmetricEig ha (hen _ ?_)
    intro st h1 h2 h3 h4
    refine (h4 s c hp).terminates eps_pos hs1 hc s3 K ?_ _ (Nat.mul_le_mul_right _ h3)
    rw [hA0, frob_smul, abs_of_pos hκ, real_epsilon]
    exact hK

/-- C70: `eigh` and `eigvalsh` return on every positive or negative semidefinite symmetric matrix, and
the result does not depend on how many more iterations they are given. Exact real arithmetic. -/
theorem C70_eigh_terminates {n : Nat} (a : Arr2 ℝ) (ha : HasShape a n n) (hs : (toMat n n a).IsSymm)
    (hsd : (∀ x : Fin n → ℝ, 0 ≤ x ⬝ᵥ toMat n n a *ᵥ x) ∨ ∀ x : Fin n → ℝ, x ⬝ᵥ toMat n n a *ᵥ x ≤ 0) :
    ∃ N r, ∀ fuel, N ≤ fuel → eigh fuel a = .ok r ∧ eigvalsh fuel a = .ok r.1 := by
  suffices h : ∃ N r, eigh N a = .ok r by
    obtain ⟨N, r, h⟩ := h
    exact ⟨N, r, fun fuel hf => eigh_mono hf h⟩
  by_cases hn : n = 0
  · obtain ⟨r, hr⟩ := eigh_of_symmetricEig (fuel := 0) ha (by
      rw [symmetricEig_empty _ _ _ _ (by rw [ha.1, ha.2]) (by rw [ha.1, hn])]; trivial)
    exact ⟨0, r, hr⟩
  · obtain ⟨s, hs1, hpos⟩ : ∃ s : ℝ, |s| = 1 ∧ ∀ x, 0 ≤ s * qf (toMat n n a) x := by
      rcases hsd with h | h
      · exact ⟨1, by simp, fun x => by rw [one_mul]; exact h x⟩
      · exact ⟨-1, by simp, fun x => by
          have := h x
          unfold qf; linarith⟩
    obtain ⟨κ, d, e, hκ, hform, hterm⟩ := eigh_terminates_aux a ha (by omega) hs hs1
    obtain ⟨c, hc, hp⟩ := exists_pairBound (n := n) (d := d) (e := e) hs1 (by
      intro x
      obtain ⟨y, -, hy⟩ := hform x
      rw [hy]
      have := mul_nonneg hκ.le (hpos y)
      linarith)
    have hdpos : 0 < ((2 : ℝ)⁻¹ ^ 52 * c) ^ 6 := by positivity
    obtain ⟨K, hK⟩ := pow_unbounded_of_one_lt
      ((κ * frob (toMat n n a)) ^ 6 / ((2 : ℝ)⁻¹ ^ 52 * c) ^ 6) (one_lt_two : (1 : ℝ) < 2)
    rw [div_lt_iff₀ hdpos, mul_comm ((2 : ℝ) ^ K)] at hK
    obtain ⟨r, hr⟩ := hterm c hc hp K hK
    exact ⟨_, r, hr⟩

/-- C70, with a bound on the number of iterations: on a definite matrix with smallest eigenvalue (in
absolute value) at least `lam` the main loop runs at most `(n - 1) (K + 1)` times, where
`(‖A‖ / (2 eps lam))⁶ < 2 ^ K`. Exact real arithmetic. -/
theorem C70_eigh_iterations {n : Nat} (a : Arr2 ℝ) (ha : HasShape a n n) (hs : (toMat n n a).IsSymm)
    (lam : ℝ) (hlam : 0 < lam)
    (hd : (∀ x : Fin n → ℝ, lam * (x ⬝ᵥ x) ≤ x ⬝ᵥ toMat n n a *ᵥ x) ∨
      ∀ x : Fin n → ℝ, x ⬝ᵥ toMat n n a *ᵥ x ≤ -(lam * (x ⬝ᵥ x)))
    (K : Nat) (hK : frob (toMat n n a) ^ 6 < ((2 : ℝ)⁻¹ ^ 52 * (2 * lam)) ^ 6 * 2 ^ K) :
    ∃ r, ∀ fuel, (n - 1) * (K + 1) ≤ fuel → eigh fuel a = .ok r ∧ eigvalsh fuel a = .ok r.1 := by
  suffices h : ∃ r, eigh ((n - 1) * (K + 1)) a = .ok r by
    obtain ⟨r, h⟩ := h
    exact ⟨r, fun fuel hf => eigh_mono hf h⟩
  by_cases hn : n = 0
  · exact eigh_of_symmetricEig ha (by
      rw [symmetricEig_empty _ _ _ _ (by rw [ha.1, ha.2]) (by rw [ha.1, hn])]; trivial)
  · obtain ⟨s, hs1, hpos⟩ : ∃ s : ℝ, |s| = 1 ∧ ∀ x, lam * (x ⬝ᵥ x) ≤ s * qf (toMat n n a) x := by
      rcases hd with h | h
      · exact ⟨1, by simp, fun x => by rw [one_mul]; exact h x⟩
      · exact ⟨-1, by simp, fun x => by
          have := h x
          unfold qf; linarith⟩
    obtain ⟨κ, d, e, hκ, hform, hterm⟩ := eigh_terminates_aux a ha (by omega) hs hs1
    refine hterm (κ * (2 * lam)) (by positivity) ?_ K ?_
    · intro p q _ _ _ x y _ _ h1 h2 _
      obtain ⟨x', hx1, hx2⟩ := hform x
      obtain ⟨y', hy1, hy2⟩ := hform y
      rw [hx2, hy2]
      have h3 := hpos x'
      have h4 := hpos y'
      rw [hx1, h1, mul_one] at h3
      rw [hy1, h2, mul_one] at h4
      calc κ * (2 * lam) ≤ κ * (s * qf (toMat n n a) x' + s * qf (toMat n n a) y') :=
            mul_le_mul_of_nonneg_left (by linarith) hκ.le
        _ = _ := by ring
    · calc (κ * frob (toMat n n a)) ^ 6 = κ ^ 6 * frob (toMat n n a) ^ 6 := by ring
        _ < κ ^ 6 * (((2 : ℝ)⁻¹ ^ 52 * (2 * lam)) ^ 6 * 2 ^ K) :=
            mul_lt_mul_of_pos_left hK (by positivity)
        _ = _ := by ring

/-- C71: `eigh` and `eigvalsh` return on every symmetric matrix whose smallest singular value exceeds
`2 (n - 1) eps ‖A‖`, definite or not, within `(n - 1) (K + 1)` iterations, where
`(2 ‖A‖ / (eps (lam - 2 (n - 1) eps ‖A‖)))⁶ < 2 ^ K`. Exact real arithmetic. -/
theorem C71_eigh_terminates_nonsingular {n : Nat} (a : Arr2 ℝ) (ha : HasShape a n n)
    (hs : (toMat n n a).IsSymm) (lam : ℝ)
    (hlam : ∀ x : Fin n → ℝ, lam ^ 2 * (x ⬝ᵥ x) ≤ (toMat n n a *ᵥ x) ⬝ᵥ (toMat n n a *ᵥ x))
    (hcond : 2 * (n - 1 : Nat) * (2 : ℝ)⁻¹ ^ 52 * frob (toMat n n a) < lam) (K : Nat)
    (hK : frob (toMat n n a) ^ 6 <
      ((2 : ℝ)⁻¹ ^ 52 * (lam - 2 * (n - 1 : Nat) * (2 : ℝ)⁻¹ ^ 52 * frob (toMat n n a)) / 2) ^ 6 * 2 ^ K) :
    ∃ r, ∀ fuel, (n - 1) * (K + 1) ≤ fuel → eigh fuel a = .ok r ∧ eigvalsh fuel a = .ok r.1 := by
  suffices h : ∃ r, eigh ((n - 1) * (K + 1)) a = .ok r by
    obtain ⟨r, h⟩ := h
    exact ⟨r, fun fuel hf => eigh_mono hf h⟩
  by_cases hn : n = 0
  · exact eigh_of_symmetricEig ha (by
      rw [symmetricEig_empty _ _ _ _ (by rw [ha.1, ha.2]) (by rw [ha.1, hn])]; trivial)
  · obtain ⟨κ, hκ, hA0⟩ := scaleDown_factor a ha (by omega)
    obtain ⟨-, -, s3, -⟩ := scaleDown_real a ha (by omega) (by omega)
    obtain ⟨d, e, Q, hQ, hT, hen⟩ := symmetricEig_enter a (eps := NdFloat.epsilon) eps_pos.le ha
      (by omega) hs
    refine eigh_of_symmetricEig ha (hen _ ?_)
    intro st h1 h2 h3 _
    have hfr : frob (toMat n n (a.scaleDown a.amax)) = κ * frob (toMat n n a) := by
      rw [hA0, frob_smul, abs_of_pos hκ]
    refine h2.terminates h1 eps_pos (by rw [real_epsilon]; norm_num) s3 (lam := κ * lam)
      (lam' := κ * (lam - 2 * (n - 1 : Nat) * (2 : ℝ)⁻¹ ^ 52 * frob (toMat n n a))) ?_ ?_ ?_ K ?_ _
      (Nat.mul_le_mul_right _ h3)
    · intro u
      rw [hA0, Matrix.smul_mul, frob_smul, abs_of_pos hκ, mul_assoc]
      refine mul_le_mul_of_nonneg_left ?_ hκ.le
      have hu := hlam fun i => u i 0
      have e1 : frob u ^ 2 = (fun i => u i 0) ⬝ᵥ fun i => u i 0 := by
        rw [frob_sq]
        simp [dotProduct, sq]
      have e2 : frob (toMat n n a * u) ^ 2 =
          (toMat n n a *ᵥ fun i => u i 0) ⬝ᵥ (toMat n n a *ᵥ fun i => u i 0) := by
        rw [frob_sq]
        simp [dotProduct, sq, Matrix.mul_apply, Matrix.mulVec]
      rw [← e1, ← e2, ← mul_pow] at hu
      exact (abs_le_of_sq_le_sq' hu (frob_nonneg _)).2
    · rw [hfr, real_epsilon]; ring
    · exact mul_pos hκ (by linarith)
    · rw [hfr, real_epsilon]
      calc (κ * frob (toMat n n a)) ^ 6 = κ ^ 6 * frob (toMat n n a) ^ 6 := by ring
        _ < κ ^ 6 * (((2 : ℝ)⁻¹ ^ 52 *
              (lam - 2 * (n - 1 : Nat) * (2 : ℝ)⁻¹ ^ 52 * frob (toMat n n a)) / 2) ^ 6 * 2 ^ K) :=
            mul_lt_mul_of_pos_left hK (by positivity)
        _ = _ := by ring

/-- C72: `wilkinson_shift` returns an eigenvalue of the trailing `2 × 2` block, the one nearest to its last
diagonal entry, and it is within the off-diagonal entry of it. Exact real arithmetic. -/
theorem C72_wilkinson_shift (tmm tnn tmn : ℝ) :
    (!![tmm, tmn; tmn, tnn] - wilkinsonShift tmm tnn tmn • (1 : Matrix (Fin 2) (Fin 2) ℝ)).det = 0 ∧
    (∀ μ : ℝ, (!![tmm, tmn; tmn, tnn] - μ • (1 : Matrix (Fin 2) (Fin 2) ℝ)).det = 0 →
      |tnn - wilkinsonShift tmm tnn tmn| ≤ |tnn - μ|) ∧
    |tnn - wilkinsonShift tmm tnn tmn| ≤ |tmn| := by
  obtain ⟨w1, w2⟩ := wilkinsonShift_real tmm tnn tmn
  have hdet : ∀ μ : ℝ, (!![tmm, tmn; tmn, tnn] - μ • (1 : Matrix (Fin 2) (Fin 2) ℝ)).det =
      (tmm - μ) * (tnn - μ) - tmn * tmn := by
    intro μ
    simp [Matrix.det_fin_two]
  refine ⟨by rw [hdet, w1, sub_self], ?_, w2⟩
  intro μ hμ
  rw [hdet] at hμ
  set σ := wilkinsonShift tmm tnn tmn with hσ
  -- both are roots of the same quadratic
  have hprod : (μ - σ) * (μ + σ - tmm - tnn) = 0 := by linear_combination hμ - w1
  rcases mul_eq_zero.1 hprod with h | h
  · rw [show μ = σ by linarith]
  · have h2 : (tnn - σ) * (tnn - μ) = -(tmn * tmn) := by
      have : μ = tmm + tnn - σ := by linarith
      rw [this]
      linear_combination -w1
    have h3 : |tnn - σ| * |tnn - μ| = |tmn| * |tmn| := by
      rw [← abs_mul, h2, abs_neg, abs_mul]
    by_contra hlt
    push Not at hlt
    have h4 : 0 ≤ |tnn - μ| := abs_nonneg _
    have h5 : |tnn - σ| * |tnn - μ| < |tmn| * |tmn| := by
      calc |tnn - σ| * |tnn - μ| ≤ |tmn| * |tnn - μ| := mul_le_mul_of_nonneg_right w2 h4
        _ < |tmn| * |tmn| := mul_lt_mul_of_pos_left (by linarith) (by linarith)
    linarith

/-! ## Concrete matrices that meet the hypotheses -/

/-- A singular positive semidefinite matrix: C70 applies. -/
theorem exOnes_terminates : ∃ N r, ∀ fuel, N ≤ fuel →
    eigh fuel (ofRows 3 3 [[1, 1, 1], [1, 1, 1], [1, 1, 1]]) = .ok r ∧
      eigvalsh fuel (ofRows 3 3 [[1, 1, 1], [1, 1, 1], [1, 1, 1]]) = .ok r.1 := by
  refine C70_eigh_terminates (n := 3) _ ⟨rfl, rfl⟩ ?_ (Or.inl fun x => ?_)
  · ext i j
    fin_cases i <;> fin_cases j <;> simp [ofRows]
  · simp [dotProduct, Matrix.mulVec, Fin.sum_univ_three, ofRows]
    nlinarith [sq_nonneg (x 0 + x 1 + x 2)]

/-- A positive definite matrix: at most 652 iterations. -/
theorem exDef_terminates : ∃ r, ∀ fuel, 652 ≤ fuel →
    eigh fuel (ofRows 3 3 [[2, 1, 0], [1, 2, 1], [0, 1, 2]]) = .ok r ∧
      eigvalsh fuel (ofRows 3 3 [[2, 1, 0], [1, 2, 1], [0, 1, 2]]) = .ok r.1 := by
  have hfr : frob (toMat 3 3 (ofRows 3 3 [[2, 1, 0], [1, 2, 1], [0, 1, 2]])) = 4 := by
    unfold frob
    rw [show (4 : ℝ) = Real.sqrt 16 by rw [show (16 : ℝ) = 4 ^ 2 by norm_num]; simp]
    congr 1
    simp [Fin.sum_univ_three, ofRows]
    norm_num
  refine C70_eigh_iterations (n := 3) _ ⟨rfl, rfl⟩ ?_ (1 / 2) (by norm_num) (Or.inl fun x => ?_) 325 ?_
  · ext i j
    fin_cases i <;> fin_cases j <;> simp [ofRows]
  · simp [dotProduct, Matrix.mulVec, Fin.sum_univ_three, ofRows]
    nlinarith [sq_nonneg (x 0 + x 1 * (2 / 3)), sq_nonneg (x 2 + x 1 * (2 / 3)), sq_nonneg (x 1)]
  · rw [hfr, show (2 : ℝ) ^ 325 = ((2 : ℝ) ^ 54) ^ 6 * 2 by rw [← pow_mul, ← pow_succ]]
    norm_num

/-- An indefinite matrix: C71 applies. -/
theorem exIndef_terminates : ∃ r, ∀ fuel, 670 ≤ fuel →
    eigh fuel (ofRows 3 3 [[1, 1, 0], [1, 0, 1], [0, 1, 1]]) = .ok r ∧
      eigvalsh fuel (ofRows 3 3 [[1, 1, 0], [1, 0, 1], [0, 1, 1]]) = .ok r.1 := by
  set F := frob (toMat 3 3 (ofRows 3 3 [[1, 1, 0], [1, 0, 1], [0, 1, 1]])) with hF
  have hF0 : 0 ≤ F := frob_nonneg _
  have hF3 : F ≤ 3 := by
    refine frob_le_of_sq (by norm_num) ?_
    simp [Fin.sum_univ_three, ofRows]
    norm_num
  refine C71_eigh_terminates_nonsingular (n := 3) _ ⟨rfl, rfl⟩ ?_ 1 ?_ ?_ 334 ?_
  · ext i j
    fin_cases i <;> fin_cases j <;> simp [ofRows]
  · intro x
    simp [dotProduct, Matrix.mulVec, Fin.sum_univ_three, ofRows]
    nlinarith [sq_nonneg (x 0 + x 1 + x 2)]
  · rw [← hF]
    norm_num
    linarith
  · rw [← hF]
    have h1 : F ^ 6 ≤ 3 ^ 6 := pow_le_pow_left₀ hF0 hF3 6
    have h2 : (2 : ℝ)⁻¹ ^ 54 ≤
        (2 : ℝ)⁻¹ ^ 52 * (1 - 2 * ((3 - 1 : Nat) : ℝ) * (2 : ℝ)⁻¹ ^ 52 * F) / 2 := by
      norm_num
      linarith
    have h3 := pow_le_pow_left₀ (by positivity) h2 6
    have h4 : (3 : ℝ) ^ 6 < ((2 : ℝ)⁻¹ ^ 54) ^ 6 * 2 ^ 334 := by
      rw [show (2 : ℝ) ^ 334 = ((2 : ℝ) ^ 54) ^ 6 * 2 ^ 10 by rw [← pow_mul, ← pow_add]]
      norm_num
    have h5 := mul_le_mul_of_nonneg_right h3 (by positivity : (0 : ℝ) ≤ 2 ^ 334)
    exact lt_of_le_of_lt h1 (lt_of_lt_of_le h4 h5)

end LinfaLinalg
