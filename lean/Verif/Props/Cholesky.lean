import Verif.Proofs.CholeskyReal
import Verif.Props.Triangular

/-! # C07 (Cholesky part) and C08–C14: properties of `/repo/src/cholesky.rs` -/

set_option linter.unusedSectionVars false

namespace LinfaLinalg

open Matrix

variable {α : Type} [Zero α] [One α] [Add α] [Sub α] [Mul α] [Div α] [Neg α] [NdFloat α]

/-- A concrete symmetric positive definite array. -/
noncomputable def exSpd : Arr2 ℝ := ofRows 2 2 [[4, 2], [2, 5]]

theorem exSpd_posDef : SymPosDef (toMat 2 2 exSpd) := by
  constructor
  · ext i j; fin_cases i <;> fin_cases j <;> simp [exSpd, ofRows, toMat]
  · intro x hx
    have : x ⬝ᵥ (toMat 2 2 exSpd).mulVec x = (2 * x 0 + x 1) ^ 2 + 4 * x 1 ^ 2 := by
      simp [dotProduct, Matrix.mulVec, Fin.sum_univ_two, exSpd, ofRows, toMat]
      ring
    rw [this]
    by_cases h1 : x 1 = 0
    · have h0 : x 0 ≠ 0 := by
        intro h0; apply hx; ext i; fin_cases i
        · exact h0
        · exact h1
      rw [h1]
      have := mul_self_pos.2 h0
      nlinarith
    · have := mul_self_pos.2 h1
      nlinarith [sq_nonneg (2 * x 0 + x 1)]

/-! ## C07 -/

/-- C07 for `cholesky.rs`: no out-of-bounds access, no panic, on any input and any scalar type. -/
theorem C07_cholesky_safe (a b : Arr2 α) :
    (∃ r, choleskyInplaceDirty a = .ok r) ∧ (∃ r, choleskyInplace a = .ok r) ∧
      OnlyErr (choleskyDirty a) ∧ OnlyErr (cholesky a) ∧ OnlyErr (solvec a b) ∧
      OnlyErr (invc a) := by
  have hsolve : ∀ b : Arr2 α, OnlyErr (solvec a b) := by
    intro b f hf
    unfold solvec at hf
    by_cases hs : a.nr = a.nc
    · rcases choleskyDirty_cases a hs with ⟨l, hl, hr, -⟩ | ⟨hl, -⟩
      · rw [hl] at hf
        simp only [ok_bind] at hf
        obtain ⟨-, hwrong, hok⟩ := C06_shape_errors l b .lower
        by_cases hb : b.nr = l.nr
        · obtain ⟨x, hx, sx⟩ := hok (by rw [hr.nr, hr.nc, hs]) hb
          rw [hx] at hf
          simp only [ok_bind] at hf
          exact (C07_triangular_safe l.t x .upper).2.2 f hf
        · rw [hwrong (by rw [hr.nr, hr.nc, hs]) hb] at hf
          injection hf with hf
          exact ⟨_, hf.symm⟩
      · rw [hl] at hf
        injection hf with hf
        exact ⟨_, hf.symm⟩
    · rw [choleskyDirty_notSquare a hs] at hf
      injection hf with hf
      exact ⟨_, hf.symm⟩
  refine ⟨?_, ?_, ?_, ?_, hsolve b, hsolve _⟩
  · by_cases hs : a.nr = a.nc
    · rcases choleskyDirty_cases a hs with ⟨l, -, -, h⟩ | ⟨-, l, j, -, -, h⟩ <;> exact ⟨_, h⟩
    · exact ⟨_, choleskyInplaceDirty_notSquare a hs⟩
  · by_cases hs : a.nr = a.nc
    · rcases cholesky_cases a hs with ⟨l, -, -, -, h⟩ | ⟨-, -, l, j, -, -, h, -⟩ <;> exact ⟨_, h⟩
    · exact ⟨_, choleskyInplace_notSquare a hs⟩
  · intro f hf
    by_cases hs : a.nr = a.nc
    · rcases choleskyDirty_cases a hs with ⟨l, h, -⟩ | ⟨h, -⟩ <;> rw [h] at hf
      · cases hf
      · injection hf with hf; exact ⟨_, hf.symm⟩
    · rw [choleskyDirty_notSquare a hs] at hf; injection hf with hf; exact ⟨_, hf.symm⟩
  · intro f hf
    by_cases hs : a.nr = a.nc
    · rcases cholesky_cases a hs with ⟨l, h, -⟩ | ⟨h, -⟩ <;> rw [h] at hf
      · cases hf
      · injection hf with hf; exact ⟨_, hf.symm⟩
    · rw [cholesky_notSquare a hs] at hf; injection hf with hf; exact ⟨_, hf.symm⟩

/-! ## C08, C09, C12 -/

theorem toMat_cleanLower {n : Nat} {b : Arr2 ℝ} (h : b.nr = n) :
    toMat n n (cleanLower b) = triPart .lower (toMat n n b) := by
  ext i j
  simp only [toMat_apply, cleanLower, triPart, Matrix.of_apply, inTri_lower, h]
  by_cases hij : (i : Nat) < j
  · rw [if_pos ⟨i.2, hij, j.2⟩, if_neg (by omega)]
  · rw [if_neg (by omega), if_pos (by omega)]

/-- C08: when `cholesky` returns `L` for a symmetric matrix, `L` is lower triangular with positive
diagonal and `L Lᵀ = A`. Exact real arithmetic. -/
theorem C08_cholesky_factor {n : Nat} (a l : Arr2 ℝ) (ha : HasShape a n n)
    (hs : (toMat n n a).IsSymm) (h : cholesky a = .ok l) :
    HasShape l n n ∧ LowerPos (toMat n n l) ∧ toMat n n l * (toMat n n l)ᵀ = toMat n n a := by
  obtain ⟨rfl, hc⟩ := ha
  rcases cholesky_cases a hc.symm with ⟨b, hb, hr, -⟩ | ⟨hb, -⟩
  · rw [h] at hb
    injection hb with hb
    subst hb
    rw [toMat_cleanLower hr.nr]
    exact ⟨⟨hr.nr, hr.nc.trans hc⟩, cholRows_lowerPos hr, cholRows_mul hr hs⟩
  · rw [h] at hb; cases hb

/-- C09: for a symmetric matrix `cholesky` returns `Ok` exactly when the matrix is positive
definite, and `NotPositiveDefinite` otherwise. Exact real arithmetic. -/
theorem C09_cholesky_iff_posDef {n : Nat} (a : Arr2 ℝ) (ha : HasShape a n n)
    (hs : (toMat n n a).IsSymm) :
    ((∃ l, cholesky a = .ok l) ↔ SymPosDef (toMat n n a)) ∧
      (¬ SymPosDef (toMat n n a) → cholesky a = .error (.err .notPositiveDefinite)) := by
  obtain ⟨rfl, hc⟩ := ha
  rcases cholesky_cases a hc.symm with ⟨b, hb, hr, -⟩ | ⟨hb, -, b, j, hj, hf, -⟩
  · have hpd : SymPosDef (toMat a.nr a.nr a) := by
      rw [← cholRows_mul hr hs]
      exact (cholRows_lowerPos hr).symPosDef
    exact ⟨⟨fun _ => hpd, fun _ => ⟨_, hb⟩⟩, fun h => absurd hpd h⟩
  · have hn := cholFailed_not_posDef hj hf
    refine ⟨⟨?_, fun h => absurd h hn⟩, fun _ => hb⟩
    rintro ⟨l, hl⟩
    rw [hb] at hl; cases hl

/-- C09: a non-square matrix is rejected with `NotSquare`, for every scalar type. -/
theorem C09_cholesky_not_square (a : Arr2 α) (h : a.nr ≠ a.nc) :
    cholesky a = .error (.err (.notSquare a.nr a.nc)) ∧
    choleskyDirty a = .error (.err (.notSquare a.nr a.nc)) :=
  ⟨cholesky_notSquare a h, choleskyDirty_notSquare a h⟩

/-- The hypotheses of C08 and C09 are met by a concrete matrix, on which `cholesky` succeeds. -/
example : ∃ l, cholesky exSpd = .ok l ∧ HasShape exSpd 2 2 ∧ (toMat 2 2 exSpd).IsSymm := by
  obtain ⟨l, hl⟩ := (C09_cholesky_iff_posDef exSpd ⟨rfl, rfl⟩ exSpd_posDef.1).1.2 exSpd_posDef
  exact ⟨l, hl, ⟨rfl, rfl⟩, exSpd_posDef.1⟩

/-- … and there is a symmetric matrix that is not positive definite. -/
example : ¬ SymPosDef (toMat 1 1 (ofRows 1 1 [[-1]])) := by
  intro h
  have := h.2 (fun _ => 1) (by intro h; have := congrFun h 0; simp at this)
  simp [dotProduct, Matrix.mulVec, ofRows] at this
  linarith

/-- C12: any lower-triangular matrix with positive diagonal whose product with its transpose is
`A` is the factor returned by `cholesky`. Exact real arithmetic. -/
theorem C12_cholesky_unique {n : Nat} (a : Arr2 ℝ) (ha : HasShape a n n)
    (K : Matrix (Fin n) (Fin n) ℝ) (hK : LowerPos K) (hKA : K * Kᵀ = toMat n n a) :
    ∃ l, cholesky a = .ok l ∧ toMat n n l = K := by
  have hpd : SymPosDef (toMat n n a) := hKA ▸ hK.symPosDef
  obtain ⟨l, hl⟩ := (C09_cholesky_iff_posDef a ha hpd.1).1.2 hpd
  obtain ⟨-, h1, h2⟩ := C08_cholesky_factor a l ha hpd.1 hl
  exact ⟨l, hl, LowerPos.unique h1 hK (by rw [h2, hKA])⟩

/-- C12, round trip: `cholesky(L Lᵀ) = L`. -/
theorem C12_round_trip {n : Nat} (L a : Arr2 ℝ) (hL : LowerPos (toMat n n L))
    (ha : HasShape a n n) (h : toMat n n a = toMat n n L * (toMat n n L)ᵀ) :
    ∃ l, cholesky a = .ok l ∧ toMat n n l = toMat n n L :=
  C12_cholesky_unique a ha _ hL h.symm

example : LowerPos (!![2, 0; 1, 2] : Matrix (Fin 2) (Fin 2) ℝ) ∧
    (!![2, 0; 1, 2] : Matrix (Fin 2) (Fin 2) ℝ) * !![2, 0; 1, 2]ᵀ = toMat 2 2 exSpd := by
  refine ⟨⟨?_, ?_⟩, ?_⟩
  · intro i j hij; fin_cases i <;> fin_cases j <;> simp at hij ⊢
  · intro i; fin_cases i <;> simp
  · ext i j; fin_cases i <;> fin_cases j <;>
      simp [exSpd, ofRows, Matrix.mul_apply, Fin.sum_univ_two] <;> norm_num

/-! ## C10, C11 -/

/-- C10, non-interference: two matrices with the same shape and the same lower triangle give the
same success or error, final contents that agree on the lower triangle (also after an error), and
identical results of the cleaned variant. For every scalar type. -/
theorem C10_upper_ignored (a b : Arr2 α) (h : LowAgree a b) :
    (∃ p q, choleskyInplaceDirty a = .ok p ∧ choleskyInplaceDirty b = .ok q ∧
      LowAgree p.1 q.1 ∧ p.2 = q.2) ∧
    RelM LowAgree (choleskyDirty a) (choleskyDirty b) ∧
    RelM SameArr (cholesky a) (cholesky b) := by
  obtain ⟨p, hp⟩ := (C07_cholesky_safe a a).1
  obtain ⟨q, hq⟩ := (C07_cholesky_safe b b).1
  have hrel := choleskyInplaceDirty_rel h
  rw [hp, hq] at hrel
  simp only [relM_ok] at hrel
  refine ⟨⟨p, q, hp, hq, hrel⟩, ?_, ?_⟩
  · unfold choleskyDirty
    rw [hp, hq]
    obtain ⟨pa, pe⟩ := p
    obtain ⟨qa, qe⟩ := q
    simp only at hrel
    obtain ⟨h1, rfl⟩ := hrel
    cases pe with
    | none => exact h1
    | some e => rfl
  · by_cases hs : a.nr = a.nc
    · have hs' : b.nr = b.nc := by rw [← h.1, ← h.2.1, hs]
      rcases cholesky_cases a hs with ⟨l, hl, hr, hd, -⟩ | ⟨hl, -, l, j, -, -, -, hd⟩ <;>
        rcases cholesky_cases b hs' with ⟨m, hm, hrm, hdm, -⟩ | ⟨hm, -, m, j', -, -, -, hdm⟩
      · rw [hl, hm]
        have hla : LowAgree l m := by
          have hl' : p = (l, none) := by
            unfold choleskyDirty at hd; rw [hp] at hd
            obtain ⟨pa, pe⟩ := p
            cases pe with
            | none => injection hd with hd; subst hd; rfl
            | some e => cases hd
          have hm' : q = (m, none) := by
            unfold choleskyDirty at hdm; rw [hq] at hdm
            obtain ⟨pa, pe⟩ := q
            cases pe with
            | none => injection hdm with hdm; subst hdm; rfl
            | some e => cases hdm
          rw [hl', hm'] at hrel
          exact hrel.1
        refine ⟨hla.1, hla.2.1, ?_⟩
        intro i j hi hj
        have hi : i < l.nr := hi
        have hj : j < l.nc := hj
        have hsq : l.nr = l.nc := by rw [hr.nr, hr.nc, hs]
        simp only [cleanLower]
        rw [← hla.1]
        by_cases hij : i < l.nr ∧ i < j ∧ j < l.nr
        · rw [if_pos hij, if_pos hij]
        · rw [if_neg hij, if_neg hij]
          exact hla.2.2 i j hi hj (by omega)
      · exfalso
        unfold choleskyDirty at hd; rw [hp] at hd
        rw [hq] at hdm
        injection hdm with hdm
        rw [hdm] at hrel
        obtain ⟨pa, pe⟩ := p
        simp only at hrel
        rw [hrel.2] at hd
        cases hd
      · exfalso
        unfold choleskyDirty at hdm; rw [hq] at hdm
        rw [hp] at hd
        injection hd with hd
        rw [hd] at hrel
        obtain ⟨pa, pe⟩ := q
        simp only at hrel
        rw [← hrel.2] at hdm
        cases hdm
      · rw [hl, hm]; rfl
    · rw [cholesky_notSquare a hs, cholesky_notSquare b (by rw [← h.1, ← h.2.1]; exact hs), h.1,
        h.2.1]
      rfl

/-- C10, frame condition: the dirty variants keep the shape and never write to the strict upper
triangle, whether they succeed or fail. For every scalar type. -/
theorem C10_upper_preserved (a : Arr2 α) (p : Arr2 α × Option LinalgError)
    (h : choleskyInplaceDirty a = .ok p) :
    p.1.nr = a.nr ∧ p.1.nc = a.nc ∧ ∀ i j, i < j → p.1.get i j = a.get i j := by
  by_cases hs : a.nr = a.nc
  · have := wp_elim_ok (choleskyInplaceDirty_wp a hs) h
    rcases this with ⟨-, hr⟩ | ⟨-, j, -, hf⟩
    · exact ⟨hr.nr, hr.nc, fun i j hij => hr.frame i j (Or.inr hij)⟩
    · exact ⟨hf.nr, hf.nc, fun i j hij => hf.frame i j (Or.inr (Or.inr hij))⟩
  · rw [choleskyInplaceDirty_notSquare a hs] at h
    injection h with h
    subst h
    exact ⟨rfl, rfl, fun _ _ _ => rfl⟩

example : LowAgree (ofRows 2 2 [[4, 99], [2, 5]]) exSpd := by
  refine ⟨rfl, rfl, ?_⟩
  intro r c hr hc hcr
  have hr : r < 2 := hr
  have hc : c < 2 := hc
  rcases r with _ | _ | r <;> rcases c with _ | _ | c <;> first | omega | simp [ofRows, exSpd]

/-- C11: `cholesky` and `cholesky_dirty` succeed together, fail with the same error, and the clean
result is the dirty one with its strict upper triangle zeroed. For every scalar type.
(The by-value and by-reference entry points run the in-place one on a copy and are modelled by the
same definition, so their agreement is by construction of the model.) -/
theorem C11_clean_dirty (a : Arr2 α) :
    (∃ b l, choleskyDirty a = .ok b ∧ cholesky a = .ok l ∧ l.nr = b.nr ∧ l.nc = b.nc ∧
      ∀ i j, i < a.nr → j < a.nc → l.get i j = if j ≤ i then b.get i j else 0) ∨
    (∃ e, choleskyDirty a = .error (.err e) ∧ cholesky a = .error (.err e)) := by
  by_cases hs : a.nr = a.nc
  · rcases cholesky_cases a hs with ⟨b, hb, hr, hd, -⟩ | ⟨hb, hd, -⟩
    · left
      refine ⟨b, _, hd, hb, rfl, rfl, ?_⟩
      intro i j hi hj
      simp only [cleanLower]
      have := hr.nr
      by_cases hij : i < b.nr ∧ i < j ∧ j < b.nr
      · rw [if_pos hij, if_neg (by omega)]
      · rw [if_neg hij, if_pos (by omega)]
    · right
      exact ⟨_, hd, hb⟩
  · right
    exact ⟨_, choleskyDirty_notSquare a hs, cholesky_notSquare a hs⟩

/-- C11: the in-place variants report the same result as the by-value ones. -/
theorem C11_inplace (a : Arr2 α) :
    (choleskyDirty a = match choleskyInplaceDirty a with
      | .ok (b, none) => .ok b
      | .ok (_, some e) => .error (.err e)
      | .error f => .error f) ∧
    (cholesky a = match choleskyInplace a with
      | .ok (b, none) => .ok b
      | .ok (_, some e) => .error (.err e)
      | .error f => .error f) := by
  constructor
  · unfold choleskyDirty
    rcases choleskyInplaceDirty a with f | ⟨b, _ | e⟩ <;> rfl
  · unfold cholesky
    rcases choleskyInplace a with f | ⟨b, _ | e⟩ <;> rfl

/-! ## C13, C14 -/

theorem posDef_isUnit {n : Nat} {A : Matrix (Fin n) (Fin n) ℝ} (h : SymPosDef A) : IsUnit A := by
  rw [← Matrix.mulVec_injective_iff_isUnit]
  intro x y hxy
  by_contra hne
  have hd : x - y ≠ 0 := sub_ne_zero.2 hne
  have := h.2 _ hd
  rw [Matrix.mulVec_sub, hxy, sub_self, dotProduct_zero] at this
  exact lt_irrefl _ this

/-- C13: on a symmetric positive definite matrix and a right-hand side with matching rows,
`solvec` returns the unique solution of `A X = B`. Exact real arithmetic. -/
theorem C13_solvec {n m : Nat} (a b : Arr2 ℝ) (ha : HasShape a n n) (hb : HasShape b n m)
    (hpd : SymPosDef (toMat n n a)) :
    ∃ x, solvec a b = .ok x ∧ HasShape x n m ∧ toMat n n a * toMat n m x = toMat n m b ∧
      ∀ X : Matrix (Fin n) (Fin m) ℝ, toMat n n a * X = toMat n m b → X = toMat n m x := by
  obtain ⟨rfl, hc⟩ := ha
  rcases cholesky_cases a hc.symm with ⟨l, -, hr, hd, -⟩ | ⟨-, -, l, j, hj, hf, -⟩
  · have hl : HasShape l a.nr a.nr := ⟨hr.nr, hr.nc.trans hc⟩
    have hpos : ∀ i, i < a.nr → l.get i i ≠ 0 := fun i hi => (cholRows_diag_pos hr i hi).ne'
    obtain ⟨y, hy, sy, ey, -⟩ := C03_solve_triangular l b .lower hl hb hpos
    obtain ⟨x, hx, sx, ex, -⟩ := C03_solve_triangular l.t y .upper ⟨hl.2, hl.1⟩ sy hpos
    have ht : triPart .upper (toMat a.nr a.nr l.t) = (triPart .lower (toMat a.nr a.nr l))ᵀ := by
      ext i j
      simp [triPart]
    rw [ht] at ex
    have hsol : toMat a.nr a.nr a * toMat a.nr m x = toMat a.nr m b := by
      rw [← cholRows_mul hr hpd.1, Matrix.mul_assoc, ex, ey]
    refine ⟨x, ?_, sx, hsol, ?_⟩
    · unfold solvec
      rw [hd]
      simp only [ok_bind]
      rw [hy]
      exact hx
    · intro X hX
      exact matrix_mul_left_cancel (posDef_isUnit hpd) (hX.trans hsol.symm)
  · exact absurd hpd (cholFailed_not_posDef hj hf)

/-- C13, errors, in the order in which they are checked. -/
theorem C13_solvec_errors (a b : Arr2 α) :
    (a.nr ≠ a.nc → solvec a b = .error (.err (.notSquare a.nr a.nc))) ∧
    (a.nr = a.nc → (∀ l, choleskyDirty a ≠ .ok l) →
      solvec a b = .error (.err .notPositiveDefinite)) ∧
    (a.nr = a.nc → (∃ l, choleskyDirty a = .ok l) → b.nr ≠ a.nr →
      solvec a b = .error (.err (.wrongRows a.nr b.nr))) := by
  refine ⟨?_, ?_, ?_⟩
  · intro h
    unfold solvec
    rw [choleskyDirty_notSquare a h]; rfl
  · intro h hl
    rcases choleskyDirty_cases a h with ⟨l, h', -⟩ | ⟨h', -⟩
    · exact absurd h' (hl l)
    · unfold solvec
      rw [h']; rfl
  · rintro h ⟨l, hl⟩ hb
    rcases choleskyDirty_cases a h with ⟨l', h', hr, -⟩ | ⟨h', -⟩
    · rw [hl] at h'
      injection h' with h'
      subst h'
      unfold solvec
      rw [hl]
      simp only [ok_bind]
      rw [(C06_shape_errors l b .lower).2.1 (by rw [hr.nr, hr.nc, h]) (by rw [hr.nr]; exact hb),
        hr.nr]
      rfl
    · rw [hl] at h'; cases h'

/-- C13: over the reals a symmetric matrix that is not positive definite gives
`NotPositiveDefinite`. -/
theorem C13_solvec_not_posDef {n : Nat} (a b : Arr2 ℝ) (ha : HasShape a n n)
    (hs : (toMat n n a).IsSymm) (h : ¬ SymPosDef (toMat n n a)) :
    solvec a b = .error (.err .notPositiveDefinite) := by
  have he := (C09_cholesky_iff_posDef a ha hs).2 h
  refine (C13_solvec_errors a b).2.1 (ha.1.trans ha.2.symm) ?_
  intro l hl
  rcases C11_clean_dirty a with ⟨b', l', -, hc, -⟩ | ⟨e, hd, -⟩
  · rw [hc] at he; cases he
  · rw [hd] at hl; cases hl

/-- C14: `invc` returns the two-sided inverse of a symmetric positive definite matrix.
Exact real arithmetic. -/
theorem C14_invc {n : Nat} (a : Arr2 ℝ) (ha : HasShape a n n) (hpd : SymPosDef (toMat n n a)) :
    ∃ x, invc a = .ok x ∧ HasShape x n n ∧ toMat n n a * toMat n n x = 1 ∧
      toMat n n x * toMat n n a = 1 := by
  have heye : toMat n n (Arr2.eye n n : Arr2 ℝ) = 1 := by
    ext i j
    simp [Arr2.eye, Matrix.one_apply, Fin.ext_iff]
  obtain ⟨x, hx, sx, ex, -⟩ := C13_solvec (m := n) a (Arr2.eye n n) ha ⟨rfl, rfl⟩ hpd
  rw [heye] at ex
  refine ⟨x, ?_, sx, ex, mul_eq_one_comm.1 ex⟩
  unfold invc
  rw [ha.1]
  exact hx

/-- The hypotheses of C13 and C14 are met by a concrete matrix. -/
example : HasShape exSpd 2 2 ∧ HasShape (ofRows 2 1 [[1], [2]]) 2 1 ∧ SymPosDef (toMat 2 2 exSpd) :=
  ⟨⟨rfl, rfl⟩, ⟨rfl, rfl⟩, exSpd_posDef⟩

end LinfaLinalg
