import Verif.Proofs.SvdGoReal

/-! # C34–C38: properties of `/repo/src/svd.rs`

The main loop of `svd` has no static bound; `fuel` is the number of iterations it is given and the
outcome `.error .fuel` means that it is still running. Every theorem holds for every `fuel`. -/

set_option linter.unusedSectionVars false

namespace LinfaLinalg

open Matrix

variable {α : Type} [Zero α] [One α] [Add α] [Sub α] [Mul α] [Div α] [Neg α] [NdFloat α]

theorem svd_eps_nonneg : (0 : ℝ) ≤ NdFloat.epsilon * NdFloat.ofRat 5 := by
  rw [real_epsilon]; simp

/-- C34: whenever `svd(true, true)` returns on a non-empty real matrix, `U` has orthonormal columns,
`Vt` has orthonormal rows, and all singular values are non-negative. It never fails otherwise than by
still running. -/
theorem C34_svd_orthonormal {m n : Nat} (fuel : Nat) (a : Arr2 ℝ) (ha : HasShape a m n)
    (hm : m ≠ 0) (hn : n ≠ 0) :
    (∀ f, svd fuel a true true = .error f → f = .fuel) ∧
    ∀ u s vt, svd fuel a true true = .ok (u, s, vt) → ∃ U V, u = some U ∧ vt = some V ∧
      HasShape U m (min m n) ∧ HasShape V (min m n) n ∧ s.len = min m n ∧
      (toMat m (min m n) U)ᵀ * toMat m (min m n) U = 1 ∧
      toMat (min m n) n V * (toMat (min m n) n V)ᵀ = 1 ∧ ∀ k, k < min m n → 0 ≤ s.get k := by
  have h := svdGo_real fuel a _ ha hm hn svd_eps_nonneg
  refine ⟨fun f hf => by have := wp_elim_error h hf; exact this, fun u s vt hok => ?_⟩
  obtain ⟨U, V, h1, h2, h3, h4, h5, h6, h7, h8, -⟩ := wp_elim_ok h hok
  exact ⟨U, V, h1, h2, h3, h4, h5, h7, h8, h6⟩

/-- The `2 × 2` matrix `[[1, 1], [0, 1]]`, a non-trivial input of the theorems of this file. -/
def svdShear : Arr2 ℝ := ofRows 2 2 [[1, 1], [0, 1]]

/-- `svd` returns on it: the hypothesis of `C34_svd_orthonormal`, `C35_svd_residual` is met. -/
example : ∃ u s vt, svd 1 svdShear true true = .ok (u, s, vt) := by
  obtain ⟨⟨u, s, vt⟩, h⟩ := svdGo_small svdShear true true (NdFloat.epsilon * NdFloat.ofRat 5) 0
    (by simp [svdShear, ofRows]) (by simp [svdShear, ofRows]) (by simp [svdShear, ofRows])
  exact ⟨u, s, vt, h⟩

/-- More generally, `svd` returns after at most one iteration for every matrix with at most two rows or
at most two columns, in every arithmetic (NaN included). -/
theorem C39_svd_terminates_partial (a : Arr2 α) (cu cv : Bool) (fuel : Nat) (h1 : a.nr ≠ 0)
    (h2 : a.nc ≠ 0) (hd : min a.nr a.nc ≤ 2) : ∃ r, svd (fuel + 1) a cu cv = .ok r :=
  svdGo_small a cu cv _ fuel h1 h2 hd

/-- C35: whenever `svd(true, true)` returns `(U, S, Vt)` on a real matrix `A`, then
`‖A - U diag(S) Vt‖_F ≤ 2 (d - 1) eps ‖A‖_F` where `d` is the number of singular values and
`eps = 5 · 2⁻⁵²`. -/
theorem C35_svd_residual {m n : Nat} (fuel : Nat) (a U V : Arr2 ℝ) (s : Arr1 ℝ)
    (ha : HasShape a m n) (h : svd fuel a true true = .ok (some U, s, some V)) :
    frob (toMat m n a - toMat m (min m n) U * Matrix.diagonal (toVec (min m n) s) *
        toMat (min m n) n V) ≤
      2 * (min m n - 1 : Nat) * (5 * (2 : ℝ)⁻¹ ^ 52) * frob (toMat m n a) := by
  have hne : m ≠ 0 ∧ n ≠ 0 := by
    by_contra hz
    have : svd fuel a true true = throwErr .emptyMatrix := by
      unfold svd svdGo
      rw [if_pos (by rw [ha.1, ha.2]; omega)]
    rw [this] at h
    exact absurd h (by simp [throwErr])
  have hw := svdGo_real fuel a _ ha hne.1 hne.2 svd_eps_nonneg
  obtain ⟨U', V', h1, h2, -, -, -, -, -, -, hres, -⟩ := wp_elim_ok hw h
  cases h1; cases h2
  have : (NdFloat.epsilon * NdFloat.ofRat 5 : ℝ) = 5 * (2 : ℝ)⁻¹ ^ 52 := by
    rw [real_epsilon]; simp; ring
  rw [this] at hres
  exact hres

/-- C36: over the reals the singular values do not depend on which factors are requested; the returned
factors are the requested ones of the two that are returned when both are requested; and the run
with other flags fails or keeps running exactly when that one does. -/
theorem C36_svd_flags (fuel : Nat) (a : Arr2 ℝ) (cu cv : Bool) :
    (∀ u s vt, svd fuel a true true = .ok (u, s, vt) →
      u.isSome ∧ vt.isSome ∧
      svd fuel a cu cv = .ok (if cu then u else none, s, if cv then vt else none)) ∧
    ∀ f, svd fuel a true true = .error f → svd fuel a cu cv = .error f := by
  have h := svdGo_keep_real a (NdFloat.epsilon * NdFloat.ofRat 5) svd_eps_nonneg cu cv fuel
  constructor
  · intro u s vt hok
    unfold svd at hok ⊢
    have hne : a.nr ≠ 0 ∧ a.nc ≠ 0 := by
      by_contra hz
      unfold svdGo at hok
      rw [if_pos (by omega)] at hok
      exact absurd hok (by simp [throwErr])
    obtain ⟨-, -, -, h4, h5⟩ := wp_elim_ok (svdGo_shape fuel a true true _ hne.1 hne.2) hok
    rw [h, hok]
    exact ⟨h4, h5, rfl⟩
  · intro f hf
    unfold svd at hf ⊢
    rw [h, hf]; rfl

/-- C36, floating point: in every scalar arithmetic, the same is true as long as at least one factor is
requested. (With no factor requested the `2 × 2` routine skips a multiplication by two numbers whose
product is 1 up to rounding.) -/
theorem C36_svd_flags_any_arithmetic (fuel : Nat) (a : Arr2 α) (cu cv : Bool)
    (hc : cu = true ∨ cv = true) :
    (∀ u s vt, svd fuel a true true = .ok (u, s, vt) →
      svd fuel a cu cv = .ok (if cu then u else none, s, if cv then vt else none)) ∧
    ∀ f, svd fuel a true true = .error f → svd fuel a cu cv = .error f := by
  have h := svdGo_keep_or a (NdFloat.epsilon * NdFloat.ofRat 5 : α) cu cv (by simpa using hc) fuel
  constructor
  · intro u s vt hok
    unfold svd at hok ⊢
    rw [h, hok]; rfl
  · intro f hf
    unfold svd at hf ⊢
    rw [h, hf]; rfl

/-- The hypotheses are met by the run on `svdShear`. -/
example : ∃ s, svd 1 svdShear false false = .ok (none, s, none) := by
  obtain ⟨⟨u, s, vt⟩, h⟩ := svdGo_small svdShear true true (NdFloat.epsilon * NdFloat.ofRat 5) 0
    (by simp [svdShear, ofRows]) (by simp [svdShear, ofRows]) (by simp [svdShear, ofRows])
  exact ⟨s, ((C36_svd_flags 1 svdShear false false).1 u s vt h).2.2⟩

/-- C37: in every scalar arithmetic, `svd` returns `EmptyMatrix` iff the matrix has no elements;
otherwise it either is still running or returns results of the right shapes, exactly the requested
ones. In particular it never accesses out of bounds, never panics and returns no other error. -/
theorem C37_svd_shapes (fuel : Nat) (a : Arr2 α) (cu cv : Bool) :
    (svd fuel a cu cv = .error (.err .emptyMatrix) ↔ a.nr = 0 ∨ a.nc = 0) ∧
    (a.nr ≠ 0 → a.nc ≠ 0 → ∀ f, svd fuel a cu cv = .error f → f = .fuel) ∧
    ∀ u s vt, svd fuel a cu cv = .ok (u, s, vt) →
      s.len = min a.nr a.nc ∧ (u.isSome = cu) ∧ (vt.isSome = cv) ∧
      (∀ U, u = some U → U.nr = a.nr ∧ U.nc = min a.nr a.nc) ∧
      (∀ V, vt = some V → V.nr = min a.nr a.nc ∧ V.nc = a.nc) := by
  refine ⟨?_, ?_, ?_⟩
  · constructor
    · intro h
      by_contra hz
      have := wp_elim_error (svdGo_shape fuel a cu cv _ (by omega) (by omega)) h
      exact absurd this (by simp)
    · intro h
      unfold svd svdGo
      rw [if_pos h]; rfl
  · intro h1 h2 f hf
    have := wp_elim_error (svdGo_shape fuel a cu cv _ h1 h2) hf
    exact this
  · intro u s vt hok
    have hne : a.nr ≠ 0 ∧ a.nc ≠ 0 := by
      by_contra hz
      unfold svd svdGo at hok
      rw [if_pos (by omega)] at hok
      exact absurd hok (by simp [throwErr])
    obtain ⟨h1, h2, h3, h4, h5⟩ := wp_elim_ok (svdGo_shape fuel a cu cv _ hne.1 hne.2) hok
    exact ⟨h1, h4, h5, fun U hU => h2 U hU, fun V hV => h3 V hV⟩

/-- C38 is false: when a computed singular value is negative, the final loop of `svd` multiplies the
column of `U` by `-0` instead of `-1`. With one negative value and `U = Vt = 1` the result no longer
factors the matrix and `U` is no longer orthonormal. -/
theorem C38_sign_fix_false : ∃ (d d' : Arr1 ℝ) (u u' : Arr2 ℝ),
    d.len = 1 ∧ HasShape u 1 1 ∧ (toMat 1 1 u)ᵀ * toMat 1 1 u = 1 ∧
    fixSigns 1 d (some u) = .ok (d', some u') ∧
    toMat 1 1 u' * Matrix.diagonal (toVec 1 d') ≠ toMat 1 1 u * Matrix.diagonal (toVec 1 d) ∧
    (toMat 1 1 u')ᵀ * toMat 1 1 u' ≠ 1 := by
  refine ⟨⟨1, fun _ => -1⟩, ⟨1, fun i => if i = 0 then - -1 else -1⟩, ⟨1, 1, fun _ _ => 1⟩,
    ⟨1, 1, fun _ c => if c = 0 then 1 * (-0) else 1⟩, rfl, ⟨rfl, rfl⟩, ?_, ?_, ?_, ?_⟩
  · ext i j
    fin_cases i; fin_cases j
    simp [toMat, Matrix.mul_apply]
  · simp [fixSigns, forRange, Arr1.idx, Arr1.idxSet, scaleCol, Arr1.upd, loopM]
  · intro h
    have := congrFun (congrFun h 0) 0
    simp [toMat, toVec, Matrix.mul_apply, Matrix.diagonal_apply] at this
  · intro h
    have := congrFun (congrFun h 0) 0
    simp [toMat, Matrix.mul_apply] at this

/-- Column `k` of `u'` is column `k` of `u`, negated where `d` is negative. -/
def FlippedWhereNeg (r n : Nat) (d : Arr1 ℝ) (u u' : Arr2 ℝ) : Prop :=
  ∀ i k, i < r → k < n → u'.get i k = if d.get k < 0 then -u.get i k else u.get i k

/-- C38, the part that is true: a value is flipped iff it is negative, so the values become their
absolute values; columns of non-negative values stay; and `U` ends up as C38 claims (the columns of
negative values flipped) iff all the columns of negative values are zero. -/
theorem C38_sign_fix_partial {r n : Nat} (d : Arr1 ℝ) (u : Arr2 ℝ) (hd : d.len = n)
    (hu : HasShape u r n) : ∃ d' u', fixSigns n d (some u) = .ok (d', some u') ∧
      (∀ k, k < n → d'.get k = |d.get k|) ∧
      (∀ i k, k < n → 0 ≤ d.get k → u'.get i k = u.get i k) ∧
      (FlippedWhereNeg r n d u u' ↔ ∀ i k, i < r → k < n → d.get k < 0 → u.get i k = 0) := by
  have : Succeeds (fixSigns n d (some u)) fun p => ∃ u', p.2 = some u' ∧ p.1.len = n ∧
      HasShape u' r n ∧ ∀ k, (k < n → p.1.get k = |d.get k|) ∧
        ∀ i, u'.get i k = if k < n ∧ d.get k < 0 then u.get i k * -0 else u.get i k := by
    unfold fixSigns
    refine wp_conseq (wp_forRange (fun j (p : Arr1 ℝ × Option (Arr2 ℝ)) => ∃ u', p.2 = some u' ∧
      p.1.len = n ∧ HasShape u' r n ∧
      ∀ k, (p.1.get k = if k < j then |d.get k| else d.get k) ∧
        ∀ i, u'.get i k = if k < j ∧ d.get k < 0 then u.get i k * -0 else u.get i k)
        (by omega) ?_ ?_) ?_
    · exact ⟨u, rfl, hd, hu, fun k => by simp⟩
    · rintro j ⟨dg, v⟩ - hj ⟨u', rfl, hl, hs, h⟩
      simp only at hl h ⊢
      rw [Arr1.idx_ok (by omega)]
      simp only [ok_bind, (h j).1, lt_irrefl, if_false, real_isSignNeg, decide_eq_true_eq]
      split_ifs with hneg
      · rw [Arr1.idxSet_ok (by omega)]
        simp only [ok_bind, scaleCol]
        rw [if_pos (by rw [hs.2]; exact hj)]
        refine ⟨_, rfl, hl, hs, fun k => ⟨?_, fun i => ?_⟩⟩
        · simp only [Arr1.upd_get]
          by_cases hk : k = j
          · subst hk; rw [if_pos rfl, if_pos (by omega), abs_of_neg hneg]
          · rw [if_neg hk, (h k).1]
            by_cases h1 : k < j
            · rw [if_pos h1, if_pos (by omega)]
            · rw [if_neg h1, if_neg (by omega)]
        · simp only
          by_cases hk : k = j
          · subst hk
            rw [if_pos rfl, (h k).2 i, if_neg (by omega), if_pos ⟨by omega, hneg⟩]
          · rw [if_neg hk, (h k).2 i]
            by_cases h1 : k < j
            · simp only [h1, true_and, show k < j + 1 by omega]
            · simp only [h1, false_and, show ¬ k < j + 1 by omega]
      · refine ⟨u', rfl, hl, hs, fun k => ⟨?_, fun i => ?_⟩⟩
        · rw [(h k).1]
          by_cases hk : k = j
          · subst hk; rw [if_neg (lt_irrefl _), if_pos (by omega), abs_of_nonneg (not_lt.1 hneg)]
          · by_cases h1 : k < j
            · rw [if_pos h1, if_pos (by omega)]
            · rw [if_neg h1, if_neg (by omega)]
        · rw [(h k).2 i]
          by_cases hk : k = j
          · subst hk; simp only [hneg, and_false, if_false]
          · by_cases h1 : k < j
            · simp only [h1, true_and, show k < j + 1 by omega]
            · simp only [h1, false_and, show ¬ k < j + 1 by omega]
    · rintro p ⟨u', h1, h2, h3, h4⟩
      exact ⟨u', h1, h2, h3, fun k => ⟨fun hk => by rw [(h4 k).1, if_pos hk], (h4 k).2⟩⟩
  obtain ⟨⟨d', v⟩, e, u', rfl, -, -, h⟩ := succeeds_iff.1 this
  refine ⟨d', u', e, fun k hk => (h k).1 hk, fun i k _ hn => ?_, ?_⟩
  · rw [(h k).2 i, if_neg (by rintro ⟨-, h⟩; linarith)]
  · constructor
    · intro hf i k hi hk hneg
      have := hf i k hi hk
      rw [(h k).2 i, if_pos ⟨hk, hneg⟩, if_pos hneg] at this
      linarith
    · intro hz i k hi hk
      rw [(h k).2 i]
      by_cases hneg : d.get k < 0
      · rw [if_pos ⟨hk, hneg⟩, if_pos hneg, hz i k hi hk hneg]; ring
      · rw [if_neg (by tauto), if_neg hneg]

end LinfaLinalg
