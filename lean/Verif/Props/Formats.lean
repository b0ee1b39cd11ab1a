import Verif.Proofs.FormatClosed
import Verif.Props.IeeeSolve
import Verif.Props.IeeeNorm

/-! # The accuracy of the direct solvers and of the norms in `f32`, `f64` and every other binary format

The bounds of C95–C98 with the constants of an IEEE 754 format: `2 ^ -mant` for the relative part and the smallest
positive number `2 ^ emin` for the absolute part. The inputs are matrices of numbers of the format. -/

namespace LinfaLinalg

open Matrix Flt

variable {F : Format}

local notation "𝔽" => Flt (Rounding.ieee F)

theorem IsFloat.proper {x : 𝔽} (h : IsFloat F x) : Proper x := by
  rintro s m rfl
  exact IsMag.nonneg h

theorem Format.accurate (F : Format) : (Rounding.ieee F).Accurate (2 ^ (-(F.mant : ℤ) - 1)) (2 ^ (F.emin - 1)) :=
  ieee_accurate F .unrolled

/-- The constants of the format. -/
theorem Format.consts (F : Format) {n : Nat} (hn : n ≤ 2 ^ F.mant) :
    (n : ℝ) * 2 ^ (-(F.mant : ℤ) - 1) < 1 ∧ gam (2 ^ (-(F.mant : ℤ) - 1)) n ≤ n * 2 ^ (-(F.mant : ℤ)) ∧
    1 + gam (2 ^ (-(F.mant : ℤ) - 1)) n ≤ 2 ∧ 2 * (2 : ℝ) ^ (F.emin - 1) = 2 ^ F.emin := by
  have hu : (n : ℝ) * 2 ^ (-(F.mant : ℤ) - 1) ≤ 1 / 2 := by
    have : (n : ℝ) ≤ 2 ^ F.mant := by exact_mod_cast hn
    calc (n : ℝ) * 2 ^ (-(F.mant : ℤ) - 1) ≤ 2 ^ F.mant * 2 ^ (-(F.mant : ℤ) - 1) :=
          mul_le_mul_of_nonneg_right this (by positivity)
      _ = 2 ^ (-1 : ℤ) := by rw [← zpow_natCast, ← zpow_add₀ (by norm_num)]; congr 1; ring
      _ = 1 / 2 := by norm_num
  obtain ⟨h1, h2, h3⟩ := gam_le_two (by positivity) hu
  refine ⟨h1, ?_, h3, ?_⟩
  · rwa [show (2 : ℝ) * 2 ^ (-(F.mant : ℤ) - 1) = 2 ^ (-(F.mant : ℤ)) by
      rw [← zpow_one_add₀ (by norm_num)]; congr 1; ring] at h2
  · rw [← zpow_one_add₀ (by norm_num)]; congr 1; ring

/-- **C113**, `solve_triangular`: the residual of every finite column of the answer. -/
theorem C113_solve_triangular {n m : Nat} (a b x : Arr2 𝔽) (uplo : UPLO) (ha : HasShape a n n) (hb : HasShape b n m)
    (hpa : All2 (IsFloat F) a) (hpb : All2 (IsFloat F) b) (hd : ∀ i, i < n → IsFin (a.get i i)) (hn : n ≤ 2 ^ F.mant)
    (hx : solveTriangular a b uplo = .ok x) (j : Fin m) (hf : ∀ i, i < n → IsFin (x.get i j)) (i : Fin n) :
    |(toMat n m (vals b) - triPart uplo (toMat n n (vals a)) * toMat n m (vals x)) i j| ≤
      n * 2 ^ (-(F.mant : ℤ)) * (absMat (triPart uplo (toMat n n (vals a))) * absMat (toMat n m (vals x))) i j +
        (2 * n + |(a.get i i).rv|) * 2 ^ F.emin := by
  obtain ⟨hn1, hg, hg1, h2⟩ := F.consts hn
  obtain ⟨-, -, E, f, hE, hF, e⟩ := C95_backward_error F.accurate a b x uplo ha hb
    (fun r c hr hc => (hpa r (by rw [ha.1]; exact hr) c (by rw [ha.2]; exact hc)).proper)
    (fun r c hr hc => (hpb r (by rw [hb.1]; exact hr) c (by rw [hb.2]; exact hc)).proper) hd hn1 hx j hf
  set T := triPart uplo (toMat n n (vals a)) with hT
  have ei := congrFun e i
  have e1 : (toMat n m (vals b) - T * toMat n m (vals x)) i j = (∑ c, E i c * (x.get c j).rv) - f i := by
    rw [Matrix.sub_apply, Matrix.mul_apply]
    rw [Matrix.mulVec, dotProduct] at ei
    have h1 : toMat n m (vals b) i j = (b.get i j).rv := rfl
    have h2 : (b.get i j).rv = (∑ c, (T + E) i c * (x.get c j).rv) - f i := by linarith
    have h3 : ∀ c, toMat n m (vals x) c j = (x.get c j).rv := fun _ => rfl
    simp only [h1, h2, h3, Matrix.add_apply, add_mul, Finset.sum_add_distrib]
    ring
  rw [e1]
  refine (abs_sub _ _).trans (add_le_add ?_ ?_)
  · rw [Matrix.mul_apply, Finset.mul_sum]
    refine (Finset.abs_sum_le_sum_abs _ _).trans (Finset.sum_le_sum ?_)
    intro c _
    rw [abs_mul, ← mul_assoc]
    exact mul_le_mul_of_nonneg_right ((hE i c).trans (mul_le_mul_of_nonneg_right hg (abs_nonneg _))) (abs_nonneg _)
  · refine (hF i).trans ?_
    rw [← h2]
    have h3 : (0 : ℝ) ≤ (2 * n + |(a.get i i).rv|) * 2 ^ (F.emin - 1) := by positivity
    calc _ = (1 + gam (2 ^ (-(F.mant : ℤ) - 1)) n) * ((2 * n + |(a.get i i).rv|) * 2 ^ (F.emin - 1)) := by ring
      _ ≤ 2 * ((2 * n + |(a.get i i).rv|) * 2 ^ (F.emin - 1)) := mul_le_mul_of_nonneg_right hg1 h3
      _ = _ := by ring

/-- **C113**, `cholesky`: `L Lᵀ` against the lower triangle of `A`, whenever the diagonal of the factor is finite. -/
theorem C113_cholesky {n : Nat} (a l : Arr2 𝔽) (ha : HasShape a n n) (hn : n + 2 ≤ 2 ^ F.mant)
    (h : cholesky a = .ok l) (hf : ∀ r, r < n → IsFin (l.get r r)) (i j : Fin n) (hij : j ≤ i) :
    0 ≤ toMat n n (vals l) j j ∧
    |(toMat n n (vals l) * (toMat n n (vals l)).transpose - toMat n n (vals a)) i j| ≤
      (n + 2) * 2 ^ (-(F.mant : ℤ)) * (absMat (toMat n n (vals l)) * (absMat (toMat n n (vals l))).transpose) i j +
        (2 * n + 2 * toMat n n (vals l) j j) * 2 ^ F.emin := by
  obtain ⟨hn1, hg, hg1, h2⟩ := F.consts hn
  obtain ⟨-, -, -, -, hnn, hb⟩ := C96_backward_error F.accurate a l ha hn1 h hf
  refine ⟨hnn j, (hb i j hij).trans (add_le_add ?_ ?_)⟩
  · have h4 : 0 ≤ (absMat (toMat n n (vals l)) * (absMat (toMat n n (vals l))).transpose) i j := by
      rw [Matrix.mul_apply]
      exact Finset.sum_nonneg fun c _ => mul_nonneg (abs_nonneg _) (abs_nonneg _)
    refine mul_le_mul_of_nonneg_right (hg.trans (le_of_eq ?_)) h4
    push_cast
    ring
  · rw [← h2]
    have h3 : (0 : ℝ) ≤ (2 * n + 2 * toMat n n (vals l) j j) * 2 ^ (F.emin - 1) := by
      have := hnn j
      positivity
    calc _ = (1 + gam (2 ^ (-(F.mant : ℤ) - 1)) (n + 2)) *
          ((2 * n + 2 * toMat n n (vals l) j j) * 2 ^ (F.emin - 1)) := by ring
      _ ≤ 2 * ((2 * n + 2 * toMat n n (vals l) j j) * 2 ^ (F.emin - 1)) := mul_le_mul_of_nonneg_right hg1 h3
      _ = _ := by ring

/-- **C113**, `solvec`: every finite column of the answer solves a nearby system exactly. -/
theorem C113_solvec {n m : Nat} (a b x l : Arr2 𝔽) (ha : HasShape a n n) (hb : HasShape b n m)
    (hpb : All2 (IsFloat F) b) (hs : (toMat n n (vals a)).IsSymm) (hn : 3 * n + 2 ≤ 2 ^ F.mant)
    (hl : cholesky a = .ok l) (hlf : ∀ r, r < n → IsFin (l.get r r)) (h : solvec a b = .ok x) (j : Fin m)
    (hf : ∀ i, i < n → IsFin (x.get i j)) :
    ∃ (E : Matrix (Fin n) (Fin n) ℝ) (f : Fin n → ℝ),
      (∀ r c, |E r c| ≤ (3 * n + 2) * 2 ^ (-(F.mant : ℤ)) *
          (absMat (toMat n n (vals l)) * (absMat (toMat n n (vals l))).transpose) r c +
        (2 * n + 2 * toMat n n (vals l) (min r c) (min r c)) * 2 ^ F.emin) ∧
      (∀ r, |f r| ≤ (2 * n + toMat n n (vals l) r r +
        2 * ∑ k, |toMat n n (vals l) r k| * (2 * n + toMat n n (vals l) k k)) * 2 ^ F.emin) ∧
      (toMat n n (vals a) + E).mulVec (fun r : Fin n => (x.get r j).rv) =
        fun r : Fin n => (b.get r j).rv + f r := by
  obtain ⟨hn1, hg, -, h2⟩ := F.consts hn
  obtain ⟨hn2, -, hg2, -⟩ := F.consts (n := n + 2) (by omega)
  obtain ⟨hn3, -, hg3, -⟩ := F.consts (n := n) (by omega)
  obtain ⟨-, -, -, -, hnn, -⟩ := C96_backward_error F.accurate a l ha hn2 hl hlf
  obtain ⟨E, f, hE, hF, e⟩ := C97_backward_error F.accurate a b x l ha hb
    (fun r c hr hc => (hpb r (by rw [hb.1]; exact hr) c (by rw [hb.2]; exact hc)).proper) hs hn1 hl hlf h j hf
  have hη : (0 : ℝ) < 2 ^ (F.emin - 1) := by positivity
  have hgam : 0 ≤ gam (2 ^ (-(F.mant : ℤ) - 1)) n := gam_nonneg (by positivity) hn3
  refine ⟨E, f, fun r c => (hE r c).trans (add_le_add ?_ ?_), fun r => (hF r).trans ?_, e⟩
  · have h4 : 0 ≤ (absMat (toMat n n (vals l)) * (absMat (toMat n n (vals l))).transpose) r c := by
      rw [Matrix.mul_apply]
      exact Finset.sum_nonneg fun c _ => mul_nonneg (abs_nonneg _) (abs_nonneg _)
    refine mul_le_mul_of_nonneg_right (hg.trans (le_of_eq ?_)) h4
    push_cast
    ring
  · rw [← h2]
    have h5 := hnn (min r c)
    have h3 : (0 : ℝ) ≤ (2 * n + 2 * toMat n n (vals l) (min r c) (min r c)) * 2 ^ (F.emin - 1) := by positivity
    nlinarith [mul_le_mul_of_nonneg_right hg2 h3]
  · rw [← h2]
    have h5 := hnn r
    have h6 : 0 ≤ ∑ k, |toMat n n (vals l) r k| * (2 * n + toMat n n (vals l) k k) :=
      Finset.sum_nonneg fun k _ => mul_nonneg (abs_nonneg _) (by have := hnn k; positivity)
    have h7 : (1 + gam (2 ^ (-(F.mant : ℤ) - 1)) n) ^ 2 ≤ 4 := by nlinarith
    have h8 : (0 : ℝ) ≤ (2 * n + toMat n n (vals l) r r) * 2 ^ (F.emin - 1) := by positivity
    have h9 : (0 : ℝ) ≤ (∑ k, |toMat n n (vals l) r k| * (2 * n + toMat n n (vals l) k k)) * 2 ^ (F.emin - 1) := by
      positivity
    nlinarith [mul_le_mul_of_nonneg_right hg3 h8, mul_le_mul_of_nonneg_right h7 h9]

/-- **C113**, the norms: a finite result means finite entries and is accurate. -/
theorem C113_norms (l : List 𝔽) (hl : ∀ x ∈ l, IsFloat F x) (hn : l.length + 2 ≤ 2 ^ F.mant) :
    (IsFin (normL1 l) → (∀ x ∈ l, IsFin x) ∧ |(normL1 l).rv - (l.map fun x => |x.rv|).sum| ≤
      l.length * 2 ^ (-(F.mant : ℤ)) * (l.map fun x => |x.rv|).sum + l.length * 2 ^ F.emin) ∧
    (IsFin (normL2 l) → (∀ x ∈ l, IsFin x) ∧ |(normL2 l).rv - Real.sqrt (l.map fun x => x.rv ^ 2).sum| ≤
      (l.length + 2) * 2 ^ (-(F.mant : ℤ)) * Real.sqrt (l.map fun x => x.rv ^ 2).sum +
        2 * Real.sqrt (l.length * 2 ^ F.emin) + 2 ^ F.emin) := by
  obtain ⟨hn1, hg, hg1, h2⟩ := F.consts hn
  obtain ⟨hn2, hg2, hg3, -⟩ := F.consts (n := l.length) (by omega)
  have hp : ∀ x ∈ l, Proper x := fun x hx => (hl x hx).proper
  have hη : (0 : ℝ) < 2 ^ (F.emin - 1) := by positivity
  refine ⟨fun h => ?_, fun h => ?_⟩
  · obtain ⟨h3, h4⟩ := C98_norm_l1 F.accurate l hp hn2 h
    refine ⟨h3, h4.trans (add_le_add ?_ ?_)⟩
    · exact mul_le_mul_of_nonneg_right hg2
        (List.sum_nonneg fun y hy => by obtain ⟨x, -, rfl⟩ := List.mem_map.1 hy; positivity)
    · rw [← h2]
      nlinarith [mul_le_mul_of_nonneg_right hg3 (by positivity : (0 : ℝ) ≤ l.length * 2 ^ (F.emin - 1))]
  · obtain ⟨h3, h4⟩ := C98_norm_l2 F.accurate l hp hn1 h
    refine ⟨h3, h4.trans (add_le_add (add_le_add ?_ ?_) ?_)⟩
    · refine mul_le_mul_of_nonneg_right (hg.trans (le_of_eq ?_)) (Real.sqrt_nonneg _)
      push_cast
      ring
    · rw [show (2 : ℝ) * l.length * 2 ^ (F.emin - 1) = l.length * 2 ^ F.emin by rw [← h2]; ring]
      exact mul_le_mul_of_nonneg_right hg1 (Real.sqrt_nonneg _)
    · rw [← h2]
      linarith

/-! ## A system in `f32` -/

/-- An integer as a number of `f32`. -/
noncomputable def num (k : ℤ) : Flt (Rounding.ieee .single) := .fin (decide (k < 0)) |(k : ℝ)|

theorem isFloat_num {k : ℤ} (h : |k| < 2 ^ 24) : IsFloat .single (num k) := by
  refine ⟨k.natAbs, 0, ?_, by norm_num [Format.single], by norm_num [Format.single], ?_⟩
  · change k.natAbs < 2 ^ 24
    rw [Int.abs_eq_natAbs] at h
    exact_mod_cast h
  · rw [zpow_zero, mul_one, Nat.cast_natAbs, Int.cast_abs]

theorem rnd_num {k : ℤ} (h : |k| < 2 ^ 24) : (Rounding.ieee .single).rnd |(k : ℝ)| = some |(k : ℝ)| :=
  IsMag.round (isFloat_num h)

theorem val_num (k : ℤ) : Flt.val (decide (k < 0)) |(k : ℝ)| = k := by
  unfold Flt.val Flt.sgn
  by_cases h : k < 0
  · have : (k : ℝ) < 0 := by exact_mod_cast h
    rw [abs_of_neg this]
    simp [h]
  · have : (0 : ℝ) ≤ k := by exact_mod_cast not_lt.1 h
    rw [abs_of_nonneg this]
    simp [h]

theorem rv_num (k : ℤ) : (num k).rv = k := val_num k

theorem add_num {a b c : ℤ} (h : a + b = c) (hc : |c| < 2 ^ 24) : num a + num b = num c := by
  subst h
  change Flt.ofReal _ (Flt.val _ _ + Flt.val _ _) = _
  rw [val_num, val_num]
  unfold Flt.ofReal num
  rw [← Int.cast_add]
  by_cases h0 : a + b = 0
  · rw [h0]
    rw [if_pos (by norm_num)]
    have : (decide (a < 0) && decide (b < 0)) = false := by
      rw [Bool.and_eq_false_iff]
      by_cases ha : a < 0
      · right; simpa using (by omega : 0 ≤ b)
      · left; simpa using ha
    rw [this]
    simp
  · rw [if_neg (by exact_mod_cast h0)]
    unfold Flt.round
    rw [rnd_num hc]
    have : decide (((a + b : ℤ) : ℝ) < 0) = decide (a + b < 0) := decide_eq_decide.2 (by exact_mod_cast Iff.rfl)
    rw [this]

theorem neg_num {a b : ℤ} (h : -a = b) (h0 : a ≠ 0) : -num a = num b := by
  subst h
  change Flt.fin _ _ = Flt.fin _ _
  congr 1
  · by_cases ha : a < 0
    · rw [decide_eq_true ha, decide_eq_false (by omega)]; rfl
    · rw [decide_eq_false ha, decide_eq_true (by omega)]; rfl
  · rw [Int.cast_neg, abs_neg]

theorem mul_num {a b c : ℤ} (h : a * b = c) (h0 : 0 < a ∨ 0 < b) (hc : |c| < 2 ^ 24) :
    num a * num b = num c := by
  subst h
  change Flt.round _ (|(a : ℝ)| * |(b : ℝ)|) = _
  rw [← abs_mul, ← Int.cast_mul]
  unfold Flt.round
  rw [rnd_num hc]
  unfold num
  have : (decide (a < 0) != decide (b < 0)) = decide (a * b < 0) := by
    rcases h0 with h0 | h0
    · rw [decide_eq_false (by omega : ¬ a < 0), Bool.false_bne, decide_eq_decide]
      exact ⟨fun h => mul_neg_of_pos_of_neg h0 h, fun h => by nlinarith⟩
    · rw [decide_eq_false (by omega : ¬ b < 0), Bool.bne_false, decide_eq_decide]
      exact ⟨fun h => mul_neg_of_neg_of_pos h h0, fun h => by nlinarith⟩
  rw [this]

theorem div_num {a b c : ℤ} (h : a = c * b) (hb : 0 < b) (h1 : 0 < c) (hc : |c| < 2 ^ 24) :
    num a / num b = num c := by
  subst h
  have hb' : (0 : ℝ) < b := by exact_mod_cast hb
  change (if |(b : ℝ)| = 0 then _ else Flt.round _ (|((c * b : ℤ) : ℝ)| / |(b : ℝ)|)) = _
  rw [if_neg (abs_pos.2 hb'.ne').ne', Int.cast_mul, abs_mul, mul_div_cancel_right₀ _ (abs_pos.2 hb'.ne').ne']
  unfold Flt.round
  rw [rnd_num hc]
  unfold num
  rw [decide_eq_false (by omega : ¬ b < 0), decide_eq_false (by omega : ¬ c < 0),
    decide_eq_false (not_lt.2 (by positivity))]
  rfl

theorem sqrt_num {a c : ℤ} (h : a = c * c) (h1 : 0 < c) (hc : |c| < 2 ^ 24) : NdFloat.sqrt (num a) = num c := by
  subst h
  have hc' : (0 : ℝ) < c := by exact_mod_cast h1
  change Flt.sqrt (num _) = _
  unfold num Flt.sqrt
  have h2 : |((c * c : ℤ) : ℝ)| = c * c := by push_cast; exact abs_of_pos (by positivity)
  rw [decide_eq_false (not_lt.2 (by positivity)), h2]
  dsimp only
  rw [if_neg (by positivity), if_neg (by simp), Real.sqrt_mul_self hc'.le]
  unfold Flt.round
  have := rnd_num hc
  rw [abs_of_pos hc'] at this ⊢
  rw [this, decide_eq_false (by omega : ¬ c < 0)]

theorem sub_num {a b c : ℤ} (h : a - b = c) (hb : b ≠ 0) (hc : |c| < 2 ^ 24) : num a - num b = num c := by
  change num a + -num b = _
  rw [neg_num rfl hb]
  exact add_num (by omega) hc

theorem num_zero : (0 : Flt (Rounding.ieee .single)) = num 0 := by
  change Flt.fin false 0 = _
  simp [num]

/-- The system `[[2, 0], [1, 4]] x = (2, 5)` in `f32`: the hypotheses of `C113_solve_triangular` hold. -/
example : ∃ (a b x : Arr2 (Flt (Rounding.ieee .single))), HasShape a 2 2 ∧ HasShape b 2 1 ∧ All2 (IsFloat .single) a ∧
    All2 (IsFloat .single) b ∧ (∀ i, i < 2 → IsFin (a.get i i)) ∧ 2 ≤ 2 ^ Format.single.mant ∧
    solveTriangular a b .lower = .ok x ∧ ∀ i, i < 2 → x.get i 0 = num 1 := by
  refine ⟨⟨2, 2, fun i j => if i = 0 ∧ j = 1 then num 0 else if i = 0 then num 2 else if j = 0 then num 1 else num 4⟩,
    ⟨2, 1, fun i _ => if i = 0 then num 2 else num 5⟩, _, ⟨rfl, rfl⟩, ⟨rfl, rfl⟩, ?_, ?_, ?_,
    by norm_num [Format.single], solveTriangular_eq _ _ .lower rfl rfl, ?_⟩
  · intro i _ j _
    dsimp only
    split_ifs <;> exact isFloat_num (by norm_num)
  · intro i _ j _
    dsimp only
    split_ifs <;> exact isFloat_num (by norm_num)
  · intro i _
    dsimp only
    split_ifs <;> exact ⟨_, _, rfl⟩
  · intro i hi
    have h1 : num 2 / num 2 = num 1 := div_num (by norm_num) (by norm_num) (by norm_num) (by norm_num)
    have h2 : num 5 + -num 1 * num 1 = num 4 := by
      rw [neg_num (b := -1) (by norm_num) (by norm_num), mul_num (c := -1) (by norm_num) (by norm_num) (by norm_num)]
      exact add_num (by norm_num) (by norm_num)
    have h3 : num 4 / num 4 = num 1 := div_num (by norm_num) (by norm_num) (by norm_num) (by norm_num)
    have : i = 0 ∨ i = 1 := by omega
    rcases this with rfl | rfl <;>
      simp [elimOrder, List.range'_succ, elimRows, elimStep, h1, h2, h3]

/-- The factorization of `[[4, 2], [2, 5]]` in `f32`: the hypotheses of `C113_cholesky` hold. -/
theorem single_cholesky : ∃ (a l : Arr2 (Flt (Rounding.ieee .single))), HasShape a 2 2 ∧ All2 (IsFloat .single) a ∧
    2 + 2 ≤ 2 ^ Format.single.mant ∧ (toMat 2 2 (vals a)).IsSymm ∧ a.get 0 0 = num 4 ∧ a.get 1 1 = num 5 ∧
    cholesky a = .ok l ∧ l.get 0 0 = num 2 ∧ l.get 1 0 = num 1 ∧ l.get 1 1 = num 2 ∧
    ∃ x, solvec a ⟨2, 1, fun i _ => if i = 0 then num 6 else num 7⟩ = .ok x ∧ ∀ i, i < 2 → x.get i 0 = num 1 := by
  set rhs : Arr2 (Flt (Rounding.ieee .single)) := ⟨2, 1, fun i _ => if i = 0 then num 6 else num 7⟩ with hrhs
  set a : Arr2 (Flt (Rounding.ieee .single)) :=
    ⟨2, 2, fun i j => if i = 0 ∧ j = 0 then num 4 else if i = 1 ∧ j = 1 then num 5 else num 2⟩ with ha
  have h00 : a.get 0 0 = num 4 := rfl
  have h10 : a.get 1 0 = num 2 := rfl
  have h11 : a.get 1 1 = num 5 := rfl
  have s4 : NdFloat.sqrt (num 4) = num 2 := sqrt_num (by norm_num) (by norm_num) (by norm_num)
  have z : ∀ k : ℤ, 0 < k → |k| < 2 ^ 24 → num k - num 0 = num k := by
    intro k hk hk'
    change num k + -num 0 = num k
    change Flt.ofReal _ (Flt.val _ _ + Flt.val _ _) = _
    have : (0 : ℝ) < k := by exact_mod_cast hk
    rw [val_num]
    unfold Flt.val
    rw [Int.cast_zero, abs_zero, mul_zero, add_zero, Flt.ofReal, if_neg this.ne']
    unfold Flt.round
    rw [rnd_num hk', decide_eq_false (not_lt.2 this.le)]
    unfold num
    rw [decide_eq_false (by omega : ¬ k < 0)]
  have key : ∀ b : Arr2 (Flt (Rounding.ieee .single)), ∀ j, j ≤ 2 → (∀ r, r ≤ j → r < 2 → OffRow a b r) →
      (∀ r, r < j → b.get r r = NdFloat.sqrt (pivot a b r)) → (1 ≤ j → b.get 0 0 = num 2 ∧ b.get 1 0 = num 1) ∧
      pivot a b 0 = num 4 ∧ (1 ≤ j → pivot a b 1 = num 4) ∧ (2 ≤ j → b.get 1 1 = num 2) := by
    intro b j hj ho hd
    have p0 : pivot a b 0 = num 4 := by
      unfold pivot
      rw [h00, show (sumTo 0 fun c => b.get 0 c * b.get 0 c) = 0 from rfl, num_zero]
      exact z 4 (by norm_num) (by norm_num)
    have e1 : 1 ≤ j → b.get 0 0 = num 2 ∧ b.get 1 0 = num 1 := by
      intro hj1
      have e0 : b.get 0 0 = num 2 := by rw [hd 0 (by omega), p0, s4]
      refine ⟨e0, ?_⟩
      rw [ho 1 hj1 (by norm_num) 0 (by norm_num), h10, e0,
        show (sumTo 0 fun i => b.get 0 i * b.get 1 i) = 0 from rfl, num_zero, z 2 (by norm_num) (by norm_num)]
      exact div_num (by norm_num) (by norm_num) (by norm_num) (by norm_num)
    have p1 : 1 ≤ j → pivot a b 1 = num 4 := by
      intro hj1
      unfold pivot
      rw [h11, show (sumTo 1 fun c => b.get 1 c * b.get 1 c) = 0 + b.get 1 0 * b.get 1 0 from rfl, (e1 hj1).2, num_zero,
        mul_num (c := 1) (by norm_num) (by norm_num) (by norm_num),
        add_num (c := 1) (by norm_num) (by norm_num)]
      exact sub_num (by norm_num) (by norm_num) (by norm_num)
    exact ⟨e1, p0, p1, fun h => by rw [hd 1 (by omega), p1 (by omega), s4]⟩
  rcases cholesky_cases a rfl with ⟨b, hb, hr, hdirty, -⟩ | ⟨-, -, b, j, hj, hfail, -⟩
  · obtain ⟨k1, -, -, k2⟩ := key b 2 le_rfl (fun r _ h => hr.off r h) (fun r h => hr.diag r h)
    refine ⟨a, _, ⟨rfl, rfl⟩, ?_, by norm_num [Format.single], ?_, h00, h11, hb, ?_, ?_, ?_, ?_⟩
    · intro i _ j _
      rw [ha]
      dsimp only
      split_ifs <;> exact isFloat_num (by norm_num)
    · ext i j
      fin_cases i <;> fin_cases j <;> rfl
    · simp [cleanLower, (k1 (by norm_num)).1]
    · simp [cleanLower, (k1 (by norm_num)).2]
    · simp [cleanLower, k2 le_rfl]
    · simp only [solvec, hdirty, ok_bind]
      rw [solveTriangular_eq b rhs .lower (by rw [hr.nr, hr.nc]) (by rw [hr.nr])]
      simp only [ok_bind]
      rw [solveTriangular_eq b.t _ .upper (by rw [Arr2.t_nr, Arr2.t_nc, hr.nr, hr.nc]) (by rw [Arr2.t_nr, hr.nc])]
      refine ⟨_, rfl, ?_⟩
      intro i hi
      have : i = 0 ∨ i = 1 := by omega
      have n1 : b.nr = 2 := hr.nr
      have n2 : b.nc = 2 := hr.nc
      have b0 := (k1 (by norm_num)).1
      have b1 := (k1 (by norm_num)).2
      have b2 := k2 le_rfl
      have d1 : num 6 / num 2 = num 3 := div_num (by norm_num) (by norm_num) (by norm_num) (by norm_num)
      have d2 : num 4 / num 2 = num 2 := div_num (by norm_num) (by norm_num) (by norm_num) (by norm_num)
      have d3 : num 2 / num 2 = num 1 := div_num (by norm_num) (by norm_num) (by norm_num) (by norm_num)
      have m1 : num 7 + -num 3 * num 1 = num 4 := by
        rw [neg_num (b := -3) (by norm_num) (by norm_num), mul_num (c := -3) (by norm_num) (by norm_num) (by norm_num)]
        exact add_num (by norm_num) (by norm_num)
      have m2 : num 3 + -num 1 * num 1 = num 2 := by
        rw [neg_num (b := -1) (by norm_num) (by norm_num), mul_num (c := -1) (by norm_num) (by norm_num) (by norm_num)]
        exact add_num (by norm_num) (by norm_num)
      rcases this with rfl | rfl <;>
        simp [hrhs, elimOrder, List.range'_succ, elimRows, elimStep, n1, n2, b0, b1, b2, d1, d2, d3, m1, m2, Arr2.t]
  · exfalso
    have hj : j < 2 := hj
    obtain ⟨-, p0, p1, -⟩ := key b j hj.le (fun r h _ => hfail.off r h) hfail.diag
    have hbad := hfail.bad
    have hp : pivot a b j = num 4 := by
      have : j = 0 ∨ j = 1 := by omega
      rcases this with rfl | rfl
      · exact p0
      · exact p1 le_rfl
    rw [hp, num_zero] at hbad
    change decide (Flt.val _ _ ≤ Flt.val _ _) = true at hbad
    rw [val_num, val_num] at hbad
    norm_num at hbad

/-- Norms in `f32`. -/
example : (∀ x ∈ [num 3, num 4], IsFloat .single x) ∧ normL2 [num 3, num 4] = num 5 ∧ normL1 [num 3, num 4] = num 7 := by
  have a3 : (NdFloat.abs (num 3)) = num 3 := by change Flt.fin _ _ = Flt.fin _ _; norm_num
  have a4 : (NdFloat.abs (num 4)) = num 4 := by change Flt.fin _ _ = Flt.fin _ _; norm_num
  refine ⟨by simp only [List.mem_cons, List.not_mem_nil, or_false]; rintro x (rfl | rfl) <;> exact isFloat_num (by norm_num), ?_, ?_⟩
  · unfold normL2
    simp only [List.map_cons, List.map_nil, List.foldl_cons, List.foldl_nil]
    rw [mul_num (c := 9) (by norm_num) (by norm_num) (by norm_num), mul_num (c := 16) (by norm_num) (by norm_num)
      (by norm_num), num_zero, add_num (c := 9) (by norm_num) (by norm_num), add_num (c := 25) (by norm_num) (by norm_num)]
    exact sqrt_num (by norm_num) (by norm_num) (by norm_num)
  · unfold normL1
    simp only [List.map_cons, List.map_nil, List.foldl_cons, List.foldl_nil]
    rw [a3, a4, num_zero, add_num (c := 3) (by norm_num) (by norm_num)]
    exact add_num (by norm_num) (by norm_num)

end LinfaLinalg
