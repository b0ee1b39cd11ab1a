import Verif.Proofs.TriangularReal

/-! # C01–C07 (triangular part): properties of `/repo/src/triangular.rs` -/

set_option linter.unusedSectionVars false
set_option linter.unusedSimpArgs false

namespace LinfaLinalg

variable {α : Type} [Zero α] [One α] [Add α] [Sub α] [Mul α] [Div α] [Neg α] [NdFloat α]

/-! ## C01 -/

/-- C01: on a square matrix `into_triangular` succeeds, keeps the shape and the chosen triangle and
zeroes everything else. -/
theorem C01_into_triangular (a : Arr2 α) (uplo : UPLO) (n : Nat) (h : HasShape a n n) :
    ∃ b, intoTriangular a uplo = .ok b ∧ HasShape b n n ∧
      ∀ i j, i < n → j < n → b.get i j = if InTri uplo i j then a.get i j else 0 := by
  obtain ⟨rfl, h2⟩ := h
  cases uplo with
  | upper =>
    refine ⟨_, triangularInplace_upper a h2.symm, ⟨rfl, h2⟩, ?_⟩
    intro i j hi hj
    simp only [inTri_upper, inTri_lower]
    by_cases hij : j < i
    · rw [if_pos ⟨hi, hij⟩, if_neg (by omega)]
    · rw [if_neg (by omega), if_pos (by omega)]
  | lower =>
    refine ⟨_, triangularInplace_lower a h2.symm, ⟨rfl, h2⟩, ?_⟩
    intro i j hi hj
    simp only [inTri_upper, inTri_lower]
    by_cases hij : i < j
    · rw [if_pos ⟨hi, hij, hj⟩, if_neg (by omega)]
    · rw [if_neg (by omega), if_pos (by omega)]

/-- C01: a non-square matrix is rejected with its true dimensions.
(No state is written before the check, so the matrix is unchanged.) -/
theorem C01_not_square (a : Arr2 α) (uplo : UPLO) (h : a.nr ≠ a.nc) :
    intoTriangular a uplo = .error (.err (.notSquare a.nr a.nc)) :=
  triangularInplace_err a uplo h

/-- C01: idempotence, and Upper then Lower leaves exactly the diagonal. -/
theorem C01_idempotent (a b : Arr2 α) (uplo : UPLO) (h : intoTriangular a uplo = .ok b) :
    ∃ c, intoTriangular b uplo = .ok c ∧ SameArr c b := by
  by_cases hs : a.nr = a.nc
  · obtain ⟨b', hb', sb, eb⟩ := C01_into_triangular a uplo a.nr ⟨rfl, hs.symm⟩
    obtain rfl : b' = b := by rw [h] at hb'; injection hb' with hb'; exact hb'.symm
    obtain ⟨c, hc, sc, ec⟩ := C01_into_triangular b' uplo a.nr sb
    refine ⟨c, hc, by rw [sc.1, sb.1], by rw [sc.2, sb.2], ?_⟩
    intro i j hi hj
    rw [sc.1] at hi; rw [sc.2] at hj
    rw [ec i j hi hj, eb i j hi hj]
    by_cases ht : InTri uplo i j <;> simp [ht]
  · rw [C01_not_square a uplo hs] at h; cases h

theorem C01_diagonal (a b : Arr2 α) (n : Nat) (hs : HasShape a n n)
    (h : intoTriangular a .upper = .ok b) :
    ∃ c, intoTriangular b .lower = .ok c ∧ HasShape c n n ∧
      ∀ i j, i < n → j < n → c.get i j = if i = j then a.get i j else 0 := by
  obtain ⟨b', hb', sb, eb⟩ := C01_into_triangular a .upper n hs
  obtain rfl : b' = b := by rw [h] at hb'; injection hb' with hb'; exact hb'.symm
  obtain ⟨c, hc, sc, ec⟩ := C01_into_triangular b' .lower n sb
  refine ⟨c, hc, sc, ?_⟩
  intro i j hi hj
  rw [ec i j hi hj, eb i j hi hj]
  simp only [inTri_upper, inTri_lower]
  by_cases h1 : i = j
  · simp [h1]
  · rw [if_neg h1]
    by_cases h2 : j ≤ i
    · rw [if_pos h2, if_neg (by omega)]
    · rw [if_neg h2]

/-- Non-vacuity: a concrete square array. -/
example : HasShape (ofRows 2 2 [[1, 2], [3, 4]]) 2 2 := ⟨rfl, rfl⟩

/-! ## C02 -/

/-- C02: `is_triangular` always returns, and returns `true` exactly when the matrix is square and
every entry strictly outside the chosen triangle is zero (in the sense of `is_zero`). -/
theorem C02_is_triangular (a : Arr2 α) (uplo : UPLO) :
    ∃ r, isTriangular a uplo = .ok r ∧
      (r = true ↔ a.nr = a.nc ∧
        ∀ i j, i < a.nr → j < a.nc → ¬ InTri uplo i j → NdFloat.isZero (a.get i j) = true) := by
  unfold isTriangular
  by_cases h : a.nr = a.nc
  · rw [checkSquare_ok h]
    cases uplo with
    | upper =>
      simp only [if_true]
      rw [rowsAllZero_eq a _ _ (by simp) (by simp; intros; omega)]
      refine ⟨_, rfl, ?_⟩
      simp only [List.all_eq_true, List.mem_range, List.mem_range'_1, inTri_upper, inTri_lower]
      constructor
      · intro H
        refine ⟨h, fun i j hi hj hij => H i hi j (by omega)⟩
      · rintro ⟨-, H⟩ i hi j hj
        exact H i j hi (by omega) (by omega)
    | lower =>
      simp only [reduceCtorEq, if_false]
      rw [rowsAllZero_eq a _ _ (by simp) (by simp only [List.mem_range, List.mem_range'_1]; intros; omega)]
      refine ⟨_, rfl, ?_⟩
      simp only [List.all_eq_true, List.mem_range, List.mem_range'_1, inTri_upper, inTri_lower]
      constructor
      · intro H
        refine ⟨h, fun i j hi hj hij => H i hi j (by omega)⟩
      · rintro ⟨-, H⟩ i hi j hj
        exact H i j hi (by omega) (by omega)
  · rw [checkSquare_err h]
    exact ⟨_, rfl, by simp [h]⟩

/-- C02: the result of `into_triangular` passes the check. -/
theorem C02_into_triangular_passes (hz : NdFloat.isZero (0 : α) = true) (a b : Arr2 α)
    (uplo : UPLO) (h : intoTriangular a uplo = .ok b) : isTriangular b uplo = .ok true := by
  by_cases hs : a.nr = a.nc
  · obtain ⟨b', hb', sb, eb⟩ := C01_into_triangular a uplo a.nr ⟨rfl, hs.symm⟩
    obtain rfl : b' = b := by rw [h] at hb'; injection hb' with hb'; exact hb'.symm
    obtain ⟨r, hr, hr'⟩ := C02_is_triangular b' uplo
    rw [hr]
    congr 1
    rw [hr']
    refine ⟨by rw [sb.1, sb.2], ?_⟩
    intro i j hi hj ht
    rw [sb.1] at hi; rw [sb.2] at hj
    rw [eb i j hi hj, if_neg ht, hz]
  · rw [C01_not_square a uplo hs] at h; cases h

example : NdFloat.isZero (0 : ℝ) = true := by simp

/-! ## C03 -/

/-- C03: with a non-zero diagonal, `solve_triangular` succeeds and returns the unique solution `X`
of `tri(T) * X = B`. Exact real arithmetic. -/
theorem C03_solve_triangular {n m : Nat} (a b : Arr2 ℝ) (uplo : UPLO) (ha : HasShape a n n)
    (hb : HasShape b n m) (hd : ∀ i, i < n → a.get i i ≠ 0) :
    ∃ x, solveTriangular a b uplo = .ok x ∧ HasShape x n m ∧
      triPart uplo (toMat n n a) * toMat n m x = toMat n m b ∧
      ∀ X : Matrix (Fin n) (Fin m) ℝ, triPart uplo (toMat n n a) * X = toMat n m b →
        X = toMat n m x := by
  have htri : triMat n uplo a (fun i => a.get i i) = triPart uplo (toMat n n a) := by
    ext i j
    simp only [triMat, triPart, Matrix.of_apply, toMat_apply]
    by_cases hij : i = j
    · subst hij
      have : InTri uplo i i := by cases uplo <;> simp [InTri]
      simp [this]
    · simp [hij]
  obtain ⟨x, hx, sx, ex⟩ := solveTriangularSystem_correct a b uplo (fun i => a.at i i)
    (fun i => a.get i i) ha hb
    (fun i hi => Arr2.at_ok (by rw [ha.1]; exact hi) (by rw [ha.2]; exact hi)) hd
  have hu := triMat_isUnit (n := n) (a := a) uplo hd
  rw [htri] at ex hu
  refine ⟨x, hx, sx, ex, fun X hX => ?_⟩
  exact matrix_mul_left_cancel hu (by rw [hX, ex])

example : HasShape (ofRows 2 2 [[2, 7], [3, 4]]) 2 2 ∧ HasShape (ofRows 2 1 [[1], [5]]) 2 1 ∧
    ∀ i, i < 2 → (ofRows 2 2 [[2, 7], [3, 4]]).get i i ≠ 0 := by
  refine ⟨⟨rfl, rfl⟩, ⟨rfl, rfl⟩, ?_⟩
  intro i hi
  rcases i with _ | _ | i
  · simp [ofRows]
  · simp [ofRows]
  · omega

/-! ## C04, C05, C06, C07 -/

/-- C04: the outcome of `solve_triangular` depends only on the shape, the chosen triangle
(with diagonal) of the matrix, and the right-hand side. -/
theorem C04_other_triangle_unused (a a' b : Arr2 α) (uplo : UPLO) (hr : a.nr = a'.nr)
    (hc : a.nc = a'.nc)
    (h : ∀ i j, i < a.nr → j < a.nc → InTri uplo i j → a.get i j = a'.get i j) :
    solveTriangular a b uplo = solveTriangular a' b uplo := by
  by_cases hs : a.nr = a.nc
  · by_cases hb : b.nr = a.nr
    · rw [solveTriangular_eq a b uplo hs hb,
        solveTriangular_eq a' b uplo (by omega) (by omega)]
      congr 1
      refine Arr2.ext' (by rfl) (by rfl) ?_
      intro r c
      simp only
      by_cases hcb : c < b.nc
      swap
      · simp [hcb]
      rw [if_pos hcb, if_pos hcb, ← hr]
      have step : ∀ (x : Nat → α) (i : Nat), i < a.nr →
          elimStep a (fun i => a.get i i) (elimRows uplo) a.nr x i =
          elimStep a' (fun i => a'.get i i) (elimRows uplo) a.nr x i := by
        intro x i hi
        funext r
        simp only [elimStep]
        rw [h i i hi (by omega) (by cases uplo <;> simp [InTri])]
        by_cases hin : (elimRows uplo i a.nr).1 ≤ r ∧ r < (elimRows uplo i a.nr).2
        · rw [h r i (by cases uplo <;> simp [elimRows] at hin <;> omega) (by omega)
            (by cases uplo <;> simp [elimRows, InTri] at hin ⊢ <;> omega)]
        · rw [if_neg hin, if_neg hin]
      have hord : ∀ i ∈ elimOrder uplo a.nr, i < a.nr := by
        intro i hi; cases uplo <;> simpa [elimOrder] using hi
      generalize (fun r => b.get r c) = x
      generalize elimOrder uplo a.nr = l at hord
      induction l generalizing x with
      | nil => rfl
      | cons i l ih =>
        simp only [List.foldl_cons]
        rw [step x i (hord i (by simp)), ih _ (fun j hj => hord j (by simp [hj]))]
    · unfold solveTriangular
      rw [solveTriangularSystem_wrongRows a b uplo _ hs hb,
        solveTriangularSystem_wrongRows a' b uplo _ (by omega) (by omega), hr]
  · unfold solveTriangular
    rw [solveTriangularSystem_notSquare a b uplo _ hs,
      solveTriangularSystem_notSquare a' b uplo _ (by omega), hr, hc]

/-- Column `k` of an array, as a one-column array. -/
def colOf {α : Type} (b : Arr2 α) (k : Nat) : Arr2 α := ⟨b.nr, 1, fun i _ => b.get i k⟩

/-- C05: column `k` of the solution is the solution for column `k` alone, for every scalar
arithmetic. -/
theorem C05_columns_independent (a b x : Arr2 α) (uplo : UPLO) (k : Nat) (hk : k < b.nc)
    (h : solveTriangular a b uplo = .ok x) :
    ∃ y, solveTriangular a (colOf b k) uplo = .ok y ∧ HasShape y b.nr 1 ∧
      ∀ i, i < b.nr → y.get i 0 = x.get i k := by
  by_cases hs : a.nr = a.nc
  · by_cases hb : b.nr = a.nr
    · rw [solveTriangular_eq a b uplo hs hb] at h
      injection h with h
      subst h
      refine ⟨_, solveTriangular_eq a (colOf b k) uplo hs hb, ⟨rfl, rfl⟩, ?_⟩
      intro i hi
      simp [colOf, hk]
    · unfold solveTriangular at h
      rw [solveTriangularSystem_wrongRows a b uplo _ hs hb] at h; cases h
  · unfold solveTriangular at h
    rw [solveTriangularSystem_notSquare a b uplo _ hs] at h; cases h

example : ∃ x, solveTriangular (ofRows 2 2 [[2, 7], [3, 4]]) (ofRows 2 2 [[1, 0], [5, 0]]) .upper =
    .ok x := ⟨_, solveTriangular_eq _ _ _ rfl rfl⟩

/-- C06 (and the triangular-solve part of C07): the exact decision table for shapes; in particular
there is never a panic, an out-of-bounds access or any other failure, whatever the entries. -/
theorem C06_shape_errors (a b : Arr2 α) (uplo : UPLO) :
    (a.nr ≠ a.nc → solveTriangular a b uplo = .error (.err (.notSquare a.nr a.nc))) ∧
    (a.nr = a.nc → b.nr ≠ a.nr →
      solveTriangular a b uplo = .error (.err (.wrongRows a.nr b.nr))) ∧
    (a.nr = a.nc → b.nr = a.nr →
      ∃ x, solveTriangular a b uplo = .ok x ∧ HasShape x b.nr b.nc) :=
  ⟨fun h => solveTriangularSystem_notSquare a b uplo _ h,
   fun h h' => solveTriangularSystem_wrongRows a b uplo _ h h',
   fun h h' => ⟨_, solveTriangular_eq a b uplo h h', rfl, rfl⟩⟩

/-- The only failures of a computation are returned errors: no panic, no out-of-bounds access, no
endless loop. -/
def OnlyErr {β : Type} (m : M β) : Prop := ∀ f, m = .error f → ∃ e, f = .err e

/-- C07 for `triangular.rs`. -/
theorem C07_triangular_safe (a b : Arr2 α) (uplo : UPLO) :
    OnlyErr (triangularInplace a uplo) ∧ OnlyErr (isTriangular a uplo) ∧
      OnlyErr (solveTriangular a b uplo) := by
  refine ⟨?_, ?_, ?_⟩
  · intro f hf
    by_cases hs : a.nr = a.nc
    · obtain ⟨c, hc, -⟩ := C01_into_triangular a uplo a.nr ⟨rfl, hs.symm⟩
      rw [intoTriangular, hf] at hc; cases hc
    · rw [triangularInplace_err a uplo hs] at hf; injection hf with hf; exact ⟨_, hf.symm⟩
  · intro f hf
    obtain ⟨r, hr, -⟩ := C02_is_triangular a uplo
    rw [hf] at hr; cases hr
  · intro f hf
    obtain ⟨h1, h2, h3⟩ := C06_shape_errors a b uplo
    by_cases hs : a.nr = a.nc
    · by_cases hb : b.nr = a.nr
      · obtain ⟨x, hx, -⟩ := h3 hs hb; rw [hf] at hx; cases hx
      · rw [h2 hs hb] at hf; injection hf with hf; exact ⟨_, hf.symm⟩
    · rw [h1 hs] at hf; injection hf with hf; exact ⟨_, hf.symm⟩

end LinfaLinalg
