import Verif.Props.Cholesky

/-! # C91: what `solvec` and `invc_inplace` leave behind -/

set_option linter.unusedSectionVars false

namespace LinfaLinalg

open Matrix

section generic
variable {α : Type} [Zero α] [One α] [Add α] [Sub α] [Mul α] [Div α] [Neg α] [NdFloat α]

/-- C91: `solvec_inplace` always finishes. Its `self` ends up exactly as `cholesky_inplace_dirty` leaves it,
whether or not the right-hand side is accepted, and the strict upper triangle is untouched. It returns the
same value or error as `solvec`; on an error `b` is untouched. -/
theorem C91_solvec_inplace (a b : Arr2 α) :
    ∃ a' b' e, solvecInplace a b = .ok (a', b', e) ∧ (∃ e', choleskyInplaceDirty a = .ok (a', e')) ∧
      (a'.nr = a.nr ∧ a'.nc = a.nc ∧ ∀ i j, i < j → a'.get i j = a.get i j) ∧
      (e = none → solvec a b = .ok b') ∧ (∀ err, e = some err → solvec a b = .error (.err err) ∧ b' = b) := by
  obtain ⟨⟨p, e⟩, hp⟩ := (C07_cholesky_safe a b).1
  have hup := C10_upper_preserved a _ hp
  obtain ⟨u1, u2, -⟩ := id hup
  simp only at u1 u2
  have hd := (C11_inplace a).1
  rw [hp] at hd
  unfold solvecInplace solvec
  rw [hd, hp]
  simp only [ok_bind]
  cases e with
  | some e =>
    refine ⟨p, b, some e, rfl, ⟨_, rfl⟩, hup, (fun h => by cases h), fun err h => ?_⟩
    cases h
    exact ⟨rfl, rfl⟩
  | none =>
    have hs : a.nr = a.nc := by
      by_contra hs
      rw [choleskyInplaceDirty_notSquare a hs] at hp
      cases hp
    simp only [ok_bind]
    unfold solveTriangularInplace
    by_cases hb : b.nr = a.nr
    · have e1 := solveTriangular_eq p b .lower (by omega) (by omega)
      rw [e1]
      simp only [ok_bind]
      rw [solveTriangular_eq p.t _ .upper (by simp only [Arr2.t]; omega) (by simp only [Arr2.t]; omega)]
      exact ⟨_, _, none, rfl, ⟨_, rfl⟩, hup, fun _ => rfl, (fun err h => by cases h)⟩
    · rw [(C06_shape_errors p b .lower).2.1 (by omega) (by omega)]
      refine ⟨p, b, some _, rfl, ⟨_, rfl⟩, hup, (fun h => by cases h), fun err h => ?_⟩
      cases h
      exact ⟨rfl, rfl⟩

/-- C91: `invc_inplace` returns what `invc` returns and leaves the Cholesky factor in `self`. -/
theorem C91_invc_inplace (a : Arr2 α) :
    ∃ a' r, invcInplace a = .ok (a', r) ∧ (∃ e', choleskyInplaceDirty a = .ok (a', e')) ∧
      invc a = (match r with | .ok x => .ok x | .error e => .error (.err e)) := by
  obtain ⟨a', x, e, h, h1, -, h2, h3⟩ := C91_solvec_inplace a (Arr2.eye a.nr a.nr)
  unfold invcInplace invc
  rw [h]
  simp only [ok_bind]
  cases e with
  | none => exact ⟨a', .ok x, rfl, h1, h2 rfl⟩
  | some e => exact ⟨a', .error e, rfl, h1, (h3 e rfl).1⟩

/-- C91: only the lower triangle of the matrix matters to `solvec`. -/
theorem C91_upper_unused (a a' b : Arr2 α) (h : LowAgree a a') : solvec a b = solvec a' b := by
  have hrel := (C10_upper_ignored a a' h).2.1
  unfold solvec
  cases h1 : choleskyDirty a with
  | error f =>
    cases h2 : choleskyDirty a' with
    | error f' => rw [h1, h2] at hrel; rw [show f = f' from hrel]
    | ok l' => rw [h1, h2] at hrel; exact hrel.elim
  | ok l =>
    cases h2 : choleskyDirty a' with
    | error f' => rw [h1, h2] at hrel; exact hrel.elim
    | ok l' =>
      rw [h1, h2] at hrel
      obtain ⟨r1, r2, r3⟩ := hrel
      simp only [ok_bind]
      rw [C04_other_triangle_unused l l' b .lower r1 r2 fun i j hi hj hij => r3 i j hi hj (by simpa using hij)]
      cases solveTriangular l' b .lower with
      | error f => rfl
      | ok y =>
        simp only [ok_bind]
        exact C04_other_triangle_unused l.t l'.t y .upper r2 r1 fun i j hi hj hij => r3 j i hj hi (by simpa using hij)

end generic

/-- C91, exact real arithmetic: after `solvec_inplace` on a positive definite matrix, `self` holds the
Cholesky factor in its lower triangle, also when the right-hand side was rejected. -/
theorem C91_factor_left {n : Nat} (a b a' b' : Arr2 ℝ) (e : Option LinalgError) (ha : HasShape a n n)
    (hpd : SymPosDef (toMat n n a)) (h : solvecInplace a b = .ok (a', b', e)) :
    HasShape a' n n ∧ LowerPos (triPart .lower (toMat n n a')) ∧
      triPart .lower (toMat n n a') * (triPart .lower (toMat n n a'))ᵀ = toMat n n a := by
  obtain ⟨rfl, hc⟩ := ha
  obtain ⟨p, b'', e', h', ⟨e'', hp⟩, -⟩ := C91_solvec_inplace a b
  rw [h] at h'
  cases h'
  rcases choleskyDirty_cases a hc.symm with ⟨l, -, hr, hl⟩ | ⟨-, l, j, hj, hf, hl⟩
  · rw [hp] at hl
    cases hl
    exact ⟨⟨hr.nr, hr.nc.trans hc⟩, cholRows_lowerPos hr, cholRows_mul hr hpd.1⟩
  · exact absurd hpd (cholFailed_not_posDef hj hf)

/-- C91, exact real arithmetic: a second `solvec` on the same matrix does not solve the system a second
time. When it succeeds, its answer solves the system of the symmetric matrix `L + Lᵀ - diag L`, where `L`
is the Cholesky factor of the original matrix. -/
theorem C91_second_call {n m : Nat} (a b a' b' b2 x : Arr2 ℝ) (e : Option LinalgError) (ha : HasShape a n n)
    (hb2 : HasShape b2 n m) (hpd : SymPosDef (toMat n n a)) (h : solvecInplace a b = .ok (a', b', e))
    (hx : solvec a' b2 = .ok x) :
    ∃ L : Matrix (Fin n) (Fin n) ℝ, LowerPos L ∧ L * Lᵀ = toMat n n a ∧
      (L + Lᵀ - Matrix.diagonal fun i => L i i) * toMat n m x = toMat n m b2 := by
  obtain ⟨hs, hL, hLL⟩ := C91_factor_left a b a' b' e ha hpd h
  refine ⟨_, hL, hLL, ?_⟩
  set L := triPart .lower (toMat n n a') with hLdef
  let S : Arr2 ℝ := ⟨n, n, fun i j => if j ≤ i then a'.get i j else a'.get j i⟩
  have hag : LowAgree a' S := ⟨hs.1, hs.2, fun r c _ _ hrc => by simp only [S]; rw [if_pos hrc]⟩
  have hSm : toMat n n S = L + Lᵀ - Matrix.diagonal fun i => L i i := by
    ext i j
    simp only [toMat_apply, S, hLdef, Matrix.add_apply, Matrix.sub_apply, Matrix.transpose_apply,
      triPart_lower_apply, lowEnt, le_refl, if_true]
    by_cases hij : i = j
    · subst hij; simp
    · rw [Matrix.diagonal_apply_ne _ hij]
      have : (i : Nat) ≠ j := fun h => hij (Fin.ext h)
      by_cases hle : (j : Nat) ≤ i
      · rw [if_pos hle, if_pos hle, if_neg (by omega)]; ring
      · rw [if_neg hle, if_neg hle, if_pos (by omega)]; ring
  have hsym : (toMat n n S).IsSymm := by
    rw [hSm]
    unfold Matrix.IsSymm
    rw [Matrix.transpose_sub, Matrix.transpose_add, Matrix.transpose_transpose, Matrix.diagonal_transpose, add_comm]
  rw [C91_upper_unused a' S b2 hag] at hx
  have hSpd : SymPosDef (toMat n n S) := by
    by_contra hn
    rw [C13_solvec_not_posDef S b2 ⟨rfl, rfl⟩ hsym hn] at hx
    cases hx
  obtain ⟨x', hx', -, hsol, -⟩ := C13_solvec S b2 ⟨rfl, rfl⟩ hb2 hSpd
  rw [hx] at hx'
  cases hx'
  rw [← hSm]
  exact hsol

/-- C91: the second answer can be wrong: for the matrix `[[4]]` and the right-hand side `[[4]]` the first
call answers `1` and the second `2`. -/
theorem C91_second_call_wrong : ∃ a b a' x y : Arr2 ℝ, SymPosDef (toMat 1 1 a) ∧
    solvecInplace a b = .ok (a', x, none) ∧ solvec a' b = .ok y ∧
    x.get 0 0 = 1 ∧ y.get 0 0 = 2 := by
  let a : Arr2 ℝ := ⟨1, 1, fun _ _ => 4⟩
  have hpd : SymPosDef (toMat 1 1 a) := by
    refine ⟨by ext i j; rfl, fun x hx => ?_⟩
    have h0 : x 0 ≠ 0 := by
      intro h
      apply hx
      ext i
      fin_cases i
      exact h
    have : x ⬝ᵥ (toMat 1 1 a).mulVec x = 4 * x 0 ^ 2 := by
      simp [dotProduct, Matrix.mulVec, toMat, a]
      ring
    rw [this]
    positivity
  obtain ⟨a', x, e, h, -, hup, h1, h2⟩ := C91_solvec_inplace a a
  obtain ⟨x', hx', -, hsol, -⟩ := C13_solvec (n := 1) (m := 1) a a ⟨rfl, rfl⟩ ⟨rfl, rfl⟩ hpd
  have he : e = none := by
    cases e with
    | none => rfl
    | some e => rw [(h2 e rfl).1] at hx'; cases hx'
  subst he
  rw [h1 rfl] at hx'
  cases hx'
  obtain ⟨hs, hL, hLL⟩ := C91_factor_left a a a' x none ⟨rfl, rfl⟩ hpd h
  have hl : a'.get 0 0 = 2 := by
    have h4 := congrFun (congrFun hLL 0) 0
    have hpos := hL.2 0
    simp [Matrix.mul_apply, triPart_lower_apply, lowEnt, a] at h4 hpos
    nlinarith
  let s : Arr2 ℝ := ⟨1, 1, fun _ _ => 2⟩
  have hpd' : SymPosDef (toMat 1 1 a') := by
    refine ⟨by ext i j; fin_cases i; fin_cases j; rfl, fun x hx => ?_⟩
    have h0 : x 0 ≠ 0 := by
      intro h
      apply hx
      ext i
      fin_cases i
      exact h
    have : x ⬝ᵥ (toMat 1 1 a').mulVec x = 2 * x 0 ^ 2 := by
      simp [dotProduct, Matrix.mulVec, toMat, hl]
      ring
    rw [this]
    positivity
  obtain ⟨y, hy, -, hysol, -⟩ := C13_solvec (n := 1) (m := 1) a' a hs ⟨rfl, rfl⟩ hpd'
  refine ⟨a, a, a', x, y, hpd, h, hy, ?_, ?_⟩
  · have := congrFun (congrFun hsol 0) 0
    simp [Matrix.mul_apply, toMat, a] at this
    linarith
  · have := congrFun (congrFun hysol 0) 0
    simp [Matrix.mul_apply, toMat, a, hl] at this
    linarith

/-- The matrix of the other Cholesky examples meets the hypotheses of `C91_factor_left`, with a right-hand side
that is accepted and with one that is not. -/
example : ∃ a' b' e, solvecInplace exSpd (Arr2.eye 3 3) = .ok (a', b', e) ∧ HasShape exSpd 2 2 ∧
    SymPosDef (toMat 2 2 exSpd) ∧ e = some (.wrongRows 2 3) := by
  obtain ⟨a', b', e, h, -, -, h1, h2⟩ := C91_solvec_inplace exSpd (Arr2.eye 3 3)
  obtain ⟨l, hl⟩ := (C09_cholesky_iff_posDef exSpd ⟨rfl, rfl⟩ exSpd_posDef.1).1.2 exSpd_posDef
  have herr := (C13_solvec_errors exSpd (Arr2.eye 3 3)).2.2 rfl (by
    rcases C11_clean_dirty exSpd with ⟨b, l, h, -⟩ | ⟨e, -, h⟩
    · exact ⟨b, h⟩
    · rw [hl] at h; cases h) (by decide)
  refine ⟨a', b', e, h, ⟨rfl, rfl⟩, exSpd_posDef, ?_⟩
  cases e with
  | none => rw [h1 rfl] at herr; cases herr
  | some e =>
    rw [(h2 e rfl).1] at herr
    cases herr
    rfl

end LinfaLinalg
