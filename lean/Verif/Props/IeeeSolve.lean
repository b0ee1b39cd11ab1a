import Verif.Proofs.IeeeSolve
import Verif.Props.Rounding

/-! # C95, C96, C97: the direct solvers in IEEE arithmetic

The scalar type is `Flt R`: rounded arithmetic with overflow, gradual underflow, infinities and NaN. No range is excluded:
if the computed entries are finite, nothing went wrong that the bounds do not account for. `Accurate u η` asks for a
relative error of at most `u` plus an absolute error of at most `η` per operation; double precision satisfies it with
`2⁻⁵³` and `2⁻¹⁰⁷⁵`. -/

namespace LinfaLinalg

open Matrix Flt

variable {R : Rounding} {u η : ℝ}

theorem triMat_vals {n : Nat} (uplo : UPLO) (a : Arr2 (Flt R)) (r c : Fin n) :
    triPart uplo (toMat n n (vals a)) r c = triEnt uplo (vals a) (fun i => (a.get i i).rv) r c := by
  simp only [triPart, Matrix.of_apply, toMat_apply, triEnt]
  by_cases h : r = c
  · subst h
    rw [if_pos rfl, if_pos (by cases uplo <;> simp)]
    rfl
  · have h' : ¬ (r : Nat) = c := by simpa [Fin.ext_iff] using h
    rw [if_neg h']

theorem gam_le_two {u : ℝ} {n : Nat} (h0 : 0 ≤ u) (h : n * u ≤ 1 / 2) :
    n * u < 1 ∧ gam u n ≤ n * (2 * u) ∧ 1 + gam u n ≤ 2 := by
  have hp : 0 ≤ n * u := by positivity
  have h1 : gam u n ≤ n * (2 * u) := by
    unfold gam
    rw [div_le_iff₀ (by linarith)]
    nlinarith
  exact ⟨by linarith, h1, by linarith⟩

/-! ## C95 -/

/-- C95: if the diagonal of the triangle and column `j` of the result of `solve_triangular` are finite, then the
diagonal is not zero, column `j` of the right-hand side is finite, and the column solves exactly a triangular system
whose matrix differs from the given one by a relative error of at most `γ_n`, entry by entry, with a right-hand side
changed by at most `(1 + γ_n) (2n + |t r r|) η`. -/
theorem C95_backward_error (hR : R.Accurate u η) {n m : Nat} (a b x : Arr2 (Flt R)) (uplo : UPLO) (ha : HasShape a n n)
    (hb : HasShape b n m) (hpa : ∀ r c, r < n → c < n → Proper (a.get r c))
    (hpb : ∀ r c, r < n → c < m → Proper (b.get r c)) (hd : ∀ i, i < n → IsFin (a.get i i)) (hn : n * u < 1)
    (hx : solveTriangular a b uplo = .ok x) (j : Fin m) (hf : ∀ i, i < n → IsFin (x.get i j)) :
    (∀ i, i < n → (a.get i i).rv ≠ 0) ∧ (∀ i, i < n → IsFin (b.get i j)) ∧
    ∃ (E : Matrix (Fin n) (Fin n) ℝ) (f : Fin n → ℝ),
      (∀ r c, |E r c| ≤ gam u n * |triPart uplo (toMat n n (vals a)) r c|) ∧
      (∀ r, |f r| ≤ (1 + gam u n) * (2 * n + |(a.get r r).rv|) * η) ∧
      (triPart uplo (toMat n n (vals a)) + E).mulVec (fun r : Fin n => (x.get r j).rv) =
        fun r : Fin n => (b.get r j).rv + f r := by
  obtain ⟨rfl, ha2⟩ := ha
  obtain ⟨hb1, rfl⟩ := hb
  rw [solveTriangular_eq a b uplo ha2.symm hb1] at hx
  cases hx
  simp only [j.2, if_true] at hf ⊢
  have hdp : ∀ i, i < a.nr → Proper (a.get i i) := fun i hi => hpa i i hi hi
  have hbp : ∀ r, r < a.nr → Proper (b.get r j) := fun r hr => hpb r j hr j.2
  refine ⟨fun i hi => elim_diag hR hd hdp _ (by cases uplo <;> simp [elimOrder]) _ hbp hf i
      (by cases uplo <;> simpa [elimOrder] using hi),
    elim_fin hR hd hdp _ (by cases uplo <;> simp [elimOrder]) _ hbp hf, ?_⟩
  choose q E hq hE hs using fun r : Fin a.nr =>
    fltElim_solves hR (a := a) uplo (fun r => b.get r j) hd hdp hbp hpa hf r r.2
  refine ⟨Matrix.of fun r c => triPart uplo (toMat a.nr a.nr (vals a)) r c * (q r c - 1), fun r => - E r, ?_, ?_, ?_⟩
  · intro r c
    rw [Matrix.of_apply, abs_mul, mul_comm]
    exact mul_le_mul_of_nonneg_right ((hq r c).abs_sub_one hR.u_nonneg hR.u_lt_one hn) (abs_nonneg _)
  · intro r
    rw [abs_neg]
    refine (hE r).trans ?_
    have h1 := inv_pow_le_gam hR.u_nonneg hn
    have := hR.η_nonneg
    calc η * (2 * a.nr + |(a.get r r).rv|) * ((1 - u) ^ a.nr)⁻¹
        ≤ η * (2 * a.nr + |(a.get r r).rv|) * (1 + gam u a.nr) := mul_le_mul_of_nonneg_left h1 (by positivity)
      _ = _ := by ring
  · funext r
    rw [← hs r, Matrix.mulVec, dotProduct, Finset.sum_range, add_neg_cancel_right]
    apply Finset.sum_congr rfl
    intro c _
    rw [Matrix.add_apply, Matrix.of_apply, triMat_vals]
    ring

/-- C95 in double precision: the residual of a finite answer. -/
theorem C95_double (P : DotPlans) {n m : Nat} (a b x : Arr2 (Flt { Rounding.binary64 with plans := P })) (uplo : UPLO)
    (ha : HasShape a n n) (hb : HasShape b n m) (hpa : ∀ r c, r < n → c < n → Proper (a.get r c))
    (hpb : ∀ r c, r < n → c < m → Proper (b.get r c)) (hd : ∀ i, i < n → IsFin (a.get i i)) (hn : n ≤ 2 ^ 52)
    (hx : solveTriangular a b uplo = .ok x) (j : Fin m) (hf : ∀ i, i < n → IsFin (x.get i j)) (i : Fin n) :
    |(toMat n m (vals b) - triPart uplo (toMat n n (vals a)) * toMat n m (vals x)) i j| ≤
      n * 2 ^ (-52 : ℤ) * (absMat (triPart uplo (toMat n n (vals a))) * absMat (toMat n m (vals x))) i j +
        (2 * n + |(a.get i i).rv|) * 2 ^ (-1074 : ℤ) := by
  have hu : (n : ℝ) * 2 ^ (-53 : ℤ) ≤ 1 / 2 := by
    have : (n : ℝ) ≤ 2 ^ 52 := by exact_mod_cast hn
    calc (n : ℝ) * 2 ^ (-53 : ℤ) ≤ 2 ^ 52 * 2 ^ (-53 : ℤ) := mul_le_mul_of_nonneg_right this (by positivity)
      _ = 1 / 2 := by norm_num
  obtain ⟨hn1, hg, hg1⟩ := gam_le_two (by positivity) hu
  rw [show (2 : ℝ) * 2 ^ (-53 : ℤ) = 2 ^ (-52 : ℤ) by norm_num] at hg
  obtain ⟨-, -, E, f, hE, hF, e⟩ := C95_backward_error (b64_accurate P) a b x uplo ha hb hpa hpb hd hn1 hx j hf
  set T := triPart uplo (toMat n n (vals a)) with hT
  have ei := congrFun e i
  have e1 : (toMat n m (vals b) - T * toMat n m (vals x)) i j = (∑ c, E i c * (x.get c j).rv) - f i := by
    rw [Matrix.sub_apply, Matrix.mul_apply]
    rw [Matrix.mulVec, dotProduct] at ei
    have h1 : toMat n m (vals b) i j = (b.get i j).rv := rfl
    have h2 : (b.get i j).rv = (∑ c, (T + E) i c * (x.get c j).rv) - f i := by linarith
    have h3 : ∀ c, toMat n m (vals x) c j = (x.get c j).rv := fun _ => rfl
    simp only [h1, h2, h3, Matrix.add_apply, add_mul, Finset.sum_add_distrib]
    ring
  rw [e1]
  refine (abs_sub _ _).trans (add_le_add ?_ ?_)
  · rw [Matrix.mul_apply, Finset.mul_sum]
    refine (Finset.abs_sum_le_sum_abs _ _).trans (Finset.sum_le_sum ?_)
    intro c _
    rw [abs_mul, ← mul_assoc]
    exact mul_le_mul_of_nonneg_right ((hE i c).trans (mul_le_mul_of_nonneg_right hg (abs_nonneg _))) (abs_nonneg _)
  · refine (hF i).trans ?_
    have h2 : (2 : ℝ) ^ (-1074 : ℤ) = 2 * 2 ^ (-1075 : ℤ) := by
      rw [← zpow_one_add₀ (by norm_num)]; norm_num
    rw [h2]
    have h3 : (0 : ℝ) ≤ (2 * n + |(a.get i i).rv|) * 2 ^ (-1075 : ℤ) := by positivity
    calc _ = (1 + gam (2 ^ (-53 : ℤ)) n) * ((2 * n + |(a.get i i).rv|) * 2 ^ (-1075 : ℤ)) := by ring
      _ ≤ 2 * ((2 * n + |(a.get i i).rv|) * 2 ^ (-1075 : ℤ)) := mul_le_mul_of_nonneg_right hg1 h3
      _ = _ := by ring

/-- The absolute term is needed: with the `1 × 1` system `4 x = 2⁻¹⁰⁷⁴`, in which the quotient underflows. -/
theorem C95_underflow : ∃ x, solveTriangular (⟨1, 1, fun _ _ => .fin false 4⟩ : Arr2 (Flt Rounding.binary64))
      ⟨1, 1, fun _ _ => .fin false (2 ^ (-1074 : ℤ))⟩ .lower = .ok x ∧ IsFin (x.get 0 0) ∧ (x.get 0 0).rv = 0 := by
  have hr : b64Round (2 ^ (-1074 : ℤ) / 4) = some 0 := by
    have e1 : (2 : ℝ) ^ (-1074 : ℤ) / 4 = 2 ^ (-1076 : ℤ) := by
      rw [show (4 : ℝ) = 2 ^ (2 : ℤ) by norm_num, ← zpow_sub₀ (by norm_num)]; norm_num
    have hl : Int.log 2 ((2 : ℝ) ^ (-1076 : ℤ)) = -1076 := by
      have := Int.log_zpow (R := ℝ) (b := 2) (by norm_num) (-1076)
      exact_mod_cast this
    have he : b64Exp (2 ^ (-1076 : ℤ)) = -1074 := by unfold b64Exp; rw [hl]; norm_num
    have hq : (2 : ℝ) ^ (-1076 : ℤ) / 2 ^ (-1074 : ℤ) = 1 / 4 := by
      rw [← zpow_sub₀ (by norm_num)]; norm_num
    have h4 : roundEven (1 / 4) = 0 := by
      have hfl : ⌊(1 / 4 : ℝ)⌋ = 0 := by rw [Int.floor_eq_iff]; norm_num
      have : Int.fract (1 / 4 : ℝ) = 1 / 4 := by rw [Int.fract, hfl]; norm_num
      unfold roundEven
      rw [this, if_pos (by norm_num), hfl]
    rw [e1]
    unfold b64Round
    simp only [he, hq, h4, Int.cast_zero, zero_mul, abs_zero]
    rw [if_pos (by positivity)]
  have hv : (fin false (2 ^ (-1074 : ℤ)) / fin false 4 : Flt Rounding.binary64) = fin false 0 := by
    rw [div_def]
    have h4 : (4 : ℝ) ≠ 0 := by norm_num
    show (if (4 : ℝ) = 0 then _ else Flt.round (false != false) (2 ^ (-1074 : ℤ) / 4)) = _
    rw [if_neg h4]
    unfold Flt.round
    have : (Rounding.binary64).rnd (2 ^ (-1074 : ℤ) / 4) = some 0 := hr
    rw [this]
    rfl
  refine ⟨_, solveTriangular_eq _ _ _ rfl rfl, ?_⟩
  have e : (if (0 : Nat) < 1 then (elimOrder .lower 1).foldl (elimStep
      (⟨1, 1, fun _ _ => .fin false 4⟩ : Arr2 (Flt Rounding.binary64)) (fun _ => fin false 4) (elimRows .lower) 1)
      (fun _ => fin false (2 ^ (-1074 : ℤ))) 0 else fin false (2 ^ (-1074 : ℤ))) = fin false 0 := by
    rw [if_pos (by norm_num)]
    simp only [elimOrder, List.range'_one, List.foldl_cons, List.foldl_nil, elimStep, if_true]
    exact hv
  refine ⟨⟨false, 0, e⟩, ?_⟩
  have e' : ∀ y : Flt Rounding.binary64, y = fin false 0 → y.rv = 0 := by rintro _ rfl; simp [rv, val]
  exact e' _ e

/-! ## C96 -/

theorem vals_cleanLower' {n : Nat} (b : Arr2 (Flt R)) (hb : b.nr = n) :
    toMat n n (vals (cleanLower b)) = triPart .lower (toMat n n (vals b)) := by
  ext i j
  simp only [toMat_apply, vals, triPart, Matrix.of_apply, inTri_lower, cleanLower]
  by_cases h : (j : Nat) ≤ i
  · rw [if_pos h, if_neg (by omega)]
  · rw [if_neg h, if_pos (by omega)]
    exact zero_rv

theorem flt_chol_bound (hR : R.Accurate u η) {n : Nat} {A b : Arr2 (Flt R)} (h : CholRows n A b)
    (hf : ∀ r c, r < n → c ≤ r → IsFin (b.get r c)) (hn : ((n + 2 : Nat) : ℝ) * u < 1) (i j : Fin n) (hij : j ≤ i) :
    |(triPart .lower (toMat n n (vals b)) * (triPart .lower (toMat n n (vals b))).transpose -
      toMat n n (vals A)) i j| ≤ gam u (n + 2) *
        (absMat (triPart .lower (toMat n n (vals b))) *
          (absMat (triPart .lower (toMat n n (vals b)))).transpose) i j +
      (1 + gam u (n + 2)) * (2 * n + 2 * |(b.get j j).rv|) * η := by
  obtain ⟨-, q, E, hq, hE, e⟩ := flt_cholRows_dot hR h hf i j hij i.2
  rw [Matrix.sub_apply, Matrix.mul_apply, Matrix.mul_apply]
  have e1 : toMat n n (vals A) i j = ∑ k : Fin n, lowEnt (vals b) i k * lowEnt (vals b) j k * q k + E := by
    rw [← Finset.sum_range (fun k => lowEnt (vals b) i k * lowEnt (vals b) j k * q k), e]
    rfl
  rw [e1, ← sub_sub, ← Finset.sum_sub_distrib, Finset.mul_sum]
  refine (abs_sub _ _).trans (add_le_add ((Finset.abs_sum_le_sum_abs _ _).trans (Finset.sum_le_sum ?_)) ?_)
  · intro k _
    have g := (hq k).abs_sub_one hR.u_nonneg hR.u_lt_one hn
    simp only [absMat, Matrix.map_apply, Matrix.transpose_apply, triPart_lower_apply]
    have e2 : lowEnt (vals b) i k * lowEnt (vals b) j k - lowEnt (vals b) i k * lowEnt (vals b) j k * q k =
        -((q k - 1) * (lowEnt (vals b) i k * lowEnt (vals b) j k)) := by ring
    rw [e2, abs_neg, abs_mul, abs_mul]
    exact mul_le_mul_of_nonneg_right g (by positivity)
  · refine hE.trans ?_
    have h1 := inv_pow_le_gam hR.u_nonneg hn
    have := hR.η_nonneg
    calc _ ≤ η * (2 * n + 2 * |(b.get j j).rv|) * (1 + gam u (n + 2)) := mul_le_mul_of_nonneg_left h1 (by positivity)
      _ = _ := by ring

/-- C96: when `cholesky` returns a factor without NaN and infinities on the diagonal, the lower triangle of the matrix was
finite, the factor is finite and lower triangular with non-negative diagonal, and `L Lᵀ` differs from the lower triangle of `A` by at most
`γ_(n+2) |L| |L|ᵀ` plus `(1 + γ_(n+2)) (2n + 2 l j j) η`, entry by entry. -/
theorem C96_backward_error (hR : R.Accurate u η) {n : Nat} (a l : Arr2 (Flt R)) (ha : HasShape a n n)
    (hn : ((n + 2 : Nat) : ℝ) * u < 1) (h : cholesky a = .ok l) (hf : ∀ r, r < n → IsFin (l.get r r)) :
    HasShape l n n ∧ (∀ r c, r < n → c ≤ r → IsFin (a.get r c)) ∧ (∀ r c, r < n → c < n → IsFin (l.get r c)) ∧
    (∀ i j : Fin n, i < j → toMat n n (vals l) i j = 0) ∧ (∀ i : Fin n, 0 ≤ toMat n n (vals l) i i) ∧
    ∀ i j : Fin n, j ≤ i →
      |(toMat n n (vals l) * (toMat n n (vals l)).transpose - toMat n n (vals a)) i j| ≤ gam u (n + 2) *
          (absMat (toMat n n (vals l)) * (absMat (toMat n n (vals l))).transpose) i j +
        (1 + gam u (n + 2)) * (2 * n + 2 * toMat n n (vals l) j j) * η := by
  obtain ⟨rfl, ha2⟩ := ha
  rcases cholesky_cases a ha2.symm with ⟨b, hb, hr, -, -⟩ | ⟨hb, -⟩
  swap
  · rw [hb] at h
    cases h
  rw [hb] at h
  cases h
  have hf' : ∀ r c, r < a.nr → c ≤ r → IsFin (b.get r c) := by
    intro r c h1 h2
    refine flt_cholRows_fin hR hr r h1 ?_ c h2
    have := hf r h1
    simp only [cleanLower] at this
    rwa [if_neg (by omega)] at this
  have hnn : ∀ i, i < a.nr → 0 ≤ (b.get i i).rv := by
    intro i hi
    have hp := flt_cholRows_proper hr i i hi le_rfl
    have hfi := hf' i i hi le_rfl
    rw [hr.diag i hi] at hfi hp ⊢
    generalize hy : pivot a b i = y at hfi hp ⊢
    have hpy : Proper y := by rw [← hy]; exact proper_sub _ _
    change 0 ≤ (Flt.sqrt y).rv
    change IsFin (Flt.sqrt y) at hfi
    have hpv := hr.piv i hi
    rw [hy] at hpv
    cases y with
    | nan => exact le_rfl
    | inf s => simp only [Flt.sqrt]; split_ifs <;> exact le_rfl
    | fin s m =>
      simp only [Flt.sqrt] at hfi ⊢
      split_ifs at hfi ⊢ with h1 h2
      · rw [h1]; simp [rv, val]
      · exact le_rfl
      · unfold Flt.round at hfi ⊢
        cases hz : R.rnd (Real.sqrt m) with
        | none => exact le_rfl
        | some z => simpa [rv, val, sgn] using R.rnd_nonneg _ _ hz
  rw [vals_cleanLower' _ hr.nr]
  refine ⟨⟨hr.nr, hr.nc.trans ha2⟩, fun r c h1 h2 => (flt_cholRows_dot hR hr hf' r c h2 h1).1, ?_, ?_, ?_, ?_⟩
  · intro r c h1 h2
    simp only [cleanLower]
    split_ifs with h3
    · exact zero_fin
    · have := hr.nr
      exact hf' r c h1 (by omega)
  · intro i j hij
    rw [triPart_lower_apply, lowEnt, if_neg (by simpa using hij)]
  · intro i
    rw [triPart_lower_apply, lowEnt, if_pos le_rfl]
    exact hnn i i.2
  · intro i j hij
    have := flt_chol_bound hR hr hf' hn i j hij
    have e : triPart .lower (toMat a.nr a.nr (vals b)) j j = |(b.get j j).rv| := by
      rw [triPart_lower_apply, lowEnt, if_pos le_rfl, abs_of_nonneg (hnn j j.2)]
      rfl
    rw [e]
    exact this

/-! ## C97 -/

/-- C97: when `solvec` returns and the diagonal of the Cholesky factor and column `j` of the answer are finite, the
column solves exactly a system with a matrix within `γ_(3n+2) |L| |L|ᵀ + (1 + γ_(n+2)) (2n + 2 l k k) η`, `k = min(r, c)`,
of `A` and a right-hand side within
`(1 + γ_n) (2n + l r r) η + (1 + γ_n)² Σ_k |l r k| (2n + l k k) η` of `b`. -/
theorem C97_backward_error (hR : R.Accurate u η) {n m : Nat} (a b x l : Arr2 (Flt R)) (ha : HasShape a n n)
    (hb : HasShape b n m) (hpb : ∀ r c, r < n → c < m → Proper (b.get r c))
    (hs : (toMat n n (vals a)).IsSymm) (hn : ((3 * n + 2 : Nat) : ℝ) * u < 1) (hl : cholesky a = .ok l)
    (hlf : ∀ r, r < n → IsFin (l.get r r)) (h : solvec a b = .ok x) (j : Fin m)
    (hf : ∀ i, i < n → IsFin (x.get i j)) :
    ∃ (E : Matrix (Fin n) (Fin n) ℝ) (f : Fin n → ℝ),
      (∀ r c, |E r c| ≤ gam u (3 * n + 2) *
          (absMat (toMat n n (vals l)) * (absMat (toMat n n (vals l))).transpose) r c +
        (1 + gam u (n + 2)) * (2 * n + 2 * toMat n n (vals l) (min r c) (min r c)) * η) ∧
      (∀ r, |f r| ≤ (1 + gam u n) * (2 * n + toMat n n (vals l) r r) * η +
        (1 + gam u n) ^ 2 * (∑ k, |toMat n n (vals l) r k| * (2 * n + toMat n n (vals l) k k)) * η) ∧
      (toMat n n (vals a) + E).mulVec (fun r : Fin n => (x.get r j).rv) =
        fun r : Fin n => (b.get r j).rv + f r := by
  have hu0 := hR.u_nonneg
  have hη := hR.η_nonneg
  have mono : ∀ k : Nat, k ≤ 3 * n + 2 → (k : ℝ) * u < 1 := fun k hk =>
    lt_of_le_of_lt (mul_le_mul_of_nonneg_right (by exact_mod_cast hk) hu0) hn
  obtain ⟨sl, -, -, hup, hnn, hbound⟩ := C96_backward_error hR a l ha (mono _ (by omega)) hl hlf
  obtain ⟨rfl, ha2⟩ := ha
  have hn2 := mono a.nr (by omega)
  have hn3 := mono (a.nr + a.nr) (by omega)
  rcases cholesky_cases a ha2.symm with ⟨d, hd, hr, hdd, -⟩ | ⟨hd, -⟩
  swap
  · rw [hd] at hl
    cases hl
  rw [hd] at hl
  cases hl
  unfold solvec at h
  rw [hdd] at h
  simp only [ok_bind] at h
  set D : Arr2 (Flt R) := cleanLower d with hD
  -- the solves read the lower triangle only, where the factor agrees with its cleaned version
  have hDsh : HasShape D a.nr a.nr := sl
  have hDp : ∀ r c, r < a.nr → c < a.nr → Proper (D.get r c) := by
    intro r c h1 h2
    simp only [hD, cleanLower]
    split_ifs with hrc
    · exact proper_fin_zero _
    · have := hr.nr
      exact flt_cholRows_proper hr r c h1 (by omega)
  have hdnr := hr.nr
  have hdnc := hr.nc
  have hsame : ∀ r c, c ≤ r → d.get r c = D.get r c := by
    intro r c hrc
    simp only [hD, cleanLower]
    rw [if_neg (by omega)]
  rw [C04_other_triangle_unused d D b .lower rfl rfl (fun i j _ _ hij => hsame i j hij)] at h
  have h2 : ∀ y, solveTriangular d.t y .upper = solveTriangular D.t y .upper := fun y =>
    C04_other_triangle_unused d.t D.t y .upper rfl rfl (fun i j _ _ hij => hsame j i hij)
  simp only [h2] at h
  have hy := solveTriangular_eq D b .lower (by rw [sl.1, sl.2]) (by rw [hb.1, sl.1])
  set y : Arr2 (Flt R) := ⟨b.nr, b.nc, fun r c => if c < b.nc then
      (elimOrder .lower D.nr).foldl (elimStep D (fun i => D.get i i) (elimRows .lower) D.nr)
        (fun r => b.get r c) r else b.get r c⟩ with hydef
  have hysh : HasShape y a.nr m := hb
  have hyp : ∀ r c, r < a.nr → c < m → Proper (y.get r c) := by
    intro r c h1 h2
    simp only [hydef]
    rw [if_pos (by rw [hb.2]; exact h2)]
    exact elim_proper _ _ (fun r hr => hpb r c (by rwa [sl.1] at hr) h2) r (by rw [sl.1]; exact h1)
  rw [hy] at h
  simp only [ok_bind] at h
  have hDt : HasShape D.t a.nr a.nr := ⟨sl.2, sl.1⟩
  have hdiag : ∀ i, i < a.nr → IsFin (D.get i i) := hlf
  obtain ⟨-, hyf, E2, f2, hE2, hf2, e2⟩ := C95_backward_error hR D.t y x .upper hDt hysh
    (fun r c h1 h2 => hDp c r h2 h1) hyp hdiag hn2 h j hf
  obtain ⟨-, -, E1, f1, hE1, hf1, e1⟩ := C95_backward_error hR D b y .lower sl hb hDp hpb hdiag hn2 hy j hyf
  set L := toMat a.nr a.nr (vals D) with hL
  have hLl : triPart .lower L = L := by
    ext r c
    simp only [triPart, Matrix.of_apply, inTri_lower]
    split_ifs with hrc
    · rfl
    · exact (hup r c (by simpa using hrc)).symm
  have hLt : triPart .upper (toMat a.nr a.nr (vals D.t)) = L.transpose := by
    rw [← hLl]
    ext i k
    simp [hL, triPart, vals, Arr2.t]
  rw [hLl] at hE1 e1
  rw [hLt] at hE2 e2
  set g := gam u a.nr with hg
  have hg0 : 0 ≤ g := gam_nonneg hu0 hn2
  have hLd : ∀ i : Fin a.nr, |(D.get i i).rv| = L i i := fun i => abs_of_nonneg (hnn i)
  refine ⟨(L + E1) * (L.transpose + E2) - toMat a.nr a.nr (vals a), fun r => f1 r + ((L + E1).mulVec f2) r, ?_, ?_, ?_⟩
  · intro r c
    set P := (absMat L * (absMat L).transpose) r c with hP
    have b1 : |(E1 * L.transpose) r c| ≤ g * P := by
      rw [Matrix.mul_apply, hP, Matrix.mul_apply, Finset.mul_sum]
      refine (Finset.abs_sum_le_sum_abs _ _).trans (Finset.sum_le_sum fun k _ => ?_)
      rw [abs_mul, ← mul_assoc]
      exact mul_le_mul_of_nonneg_right (hE1 r k) (abs_nonneg _)
    have b2 : |(L * E2) r c| ≤ g * P := by
      rw [Matrix.mul_apply, hP, Matrix.mul_apply, Finset.mul_sum]
      refine (Finset.abs_sum_le_sum_abs _ _).trans (Finset.sum_le_sum fun k _ => ?_)
      rw [abs_mul]
      calc |L r k| * |E2 k c| ≤ |L r k| * (g * |L.transpose k c|) :=
            mul_le_mul_of_nonneg_left (hE2 k c) (abs_nonneg _)
        _ = g * (absMat L r k * (absMat L).transpose k c) := by
            simp only [absMat, Matrix.map_apply, Matrix.transpose_apply]; ring
    have b3 : |(E1 * E2) r c| ≤ g * g * P := by
      rw [Matrix.mul_apply, hP, Matrix.mul_apply, Finset.mul_sum]
      refine (Finset.abs_sum_le_sum_abs _ _).trans (Finset.sum_le_sum fun k _ => ?_)
      rw [abs_mul]
      calc |E1 r k| * |E2 k c| ≤ (g * |L r k|) * (g * |L.transpose k c|) :=
            mul_le_mul (hE1 r k) (hE2 k c) (abs_nonneg _) (mul_nonneg hg0 (abs_nonneg _))
        _ = g * g * (absMat L r k * (absMat L).transpose k c) := by
            simp only [absMat, Matrix.map_apply, Matrix.transpose_apply]; ring
    have b0 : |(L * L.transpose - toMat a.nr a.nr (vals a)) r c| ≤ gam u (a.nr + 2) * P +
        (1 + gam u (a.nr + 2)) * (2 * a.nr + 2 * L (min r c) (min r c)) * η := by
      rcases le_total c r with hcr | hcr
      · rw [min_eq_right hcr]
        exact hbound r c hcr
      · rw [min_eq_left hcr]
        have := hbound c r hcr
        have es : ∀ X : Matrix (Fin a.nr) (Fin a.nr) ℝ, (X * X.transpose) c r = (X * X.transpose) r c := by
          intro X
          rw [Matrix.mul_apply, Matrix.mul_apply]
          apply Finset.sum_congr rfl
          intro k _
          rw [Matrix.transpose_apply, Matrix.transpose_apply, mul_comm]
        rw [Matrix.sub_apply, es, es, hs.apply] at this
        rw [Matrix.sub_apply]
        exact this
    have hP0 : 0 ≤ P := by
      rw [hP, Matrix.mul_apply]
      exact Finset.sum_nonneg fun k _ => mul_nonneg (abs_nonneg _) (abs_nonneg _)
    have hsplit : ((L + E1) * (L.transpose + E2) - toMat a.nr a.nr (vals a)) r c =
        (L * L.transpose - toMat a.nr a.nr (vals a)) r c + (E1 * L.transpose) r c + (L * E2) r c + (E1 * E2) r c := by
      rw [add_mul, mul_add, mul_add]
      simp only [Matrix.sub_apply, Matrix.add_apply]
      ring
    have hgg : gam u (a.nr + 2) + g + g + g * g ≤ gam u (3 * a.nr + 2) := by
      have h1 : g + g + g * g ≤ gam u (a.nr + a.nr) := gam_add hu0 hn3
      have hn4 : ((a.nr + 2 + (a.nr + a.nr) : Nat) : ℝ) * u < 1 := mono _ (by omega)
      have h2 := gam_add hu0 hn4
      rw [show a.nr + 2 + (a.nr + a.nr) = 3 * a.nr + 2 by omega] at h2
      have h3 := mul_nonneg (gam_nonneg hu0 (mono (a.nr + 2) (by omega))) (gam_nonneg hu0 hn3)
      linarith
    rw [hsplit]
    refine (abs_add_le _ _).trans ((add_le_add_left (abs_add_three _ _ _) _).trans ?_)
    have := mul_le_mul_of_nonneg_right hgg hP0
    set T := (1 + gam u (a.nr + 2)) * (2 * a.nr + 2 * L (min r c) (min r c)) * η
    have e5 : (gam u (a.nr + 2) + g + g + g * g) * P = gam u (a.nr + 2) * P + g * P + g * P + g * g * P := by ring
    linarith
  · intro r
    refine (abs_add_le _ _).trans (add_le_add ?_ ?_)
    · rw [← hLd r]
      exact hf1 r
    · rw [Matrix.mulVec, dotProduct]
      refine (Finset.abs_sum_le_sum_abs _ _).trans ?_
      rw [Finset.mul_sum, Finset.sum_mul]
      refine Finset.sum_le_sum fun k _ => ?_
      rw [abs_mul]
      have c1 : |(L + E1) r k| ≤ (1 + g) * |L r k| := by
        rw [Matrix.add_apply]
        refine (abs_add_le _ _).trans ?_
        have := hE1 r k
        linarith
      have c2 : |f2 k| ≤ (1 + g) * (2 * a.nr + L k k) * η := by
        rw [← hLd k]
        exact hf2 k
      have c3 : 0 ≤ L k k := hnn k
      calc |(L + E1) r k| * |f2 k| ≤ ((1 + g) * |L r k|) * ((1 + g) * (2 * a.nr + L k k) * η) :=
            mul_le_mul c1 c2 (abs_nonneg _) (by positivity)
        _ = _ := by ring
  · rw [add_sub_cancel, ← Matrix.mulVec_mulVec, e2]
    have : (fun r : Fin a.nr => (y.get r j).rv + f2 r) = (fun r : Fin a.nr => (y.get r j).rv) + f2 := rfl
    rw [this, Matrix.mulVec_add, e1]
    funext r
    simp only [Pi.add_apply]
    ring

end LinfaLinalg
