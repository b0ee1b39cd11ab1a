import Verif.Proofs.CholSuccess
import Verif.Props.IeeeSolve
import Verif.Props.Precision
import Verif.Props.Triangular
import Verif.Proofs.GivensFloat

/-! # C140: the range in which the Cholesky decomposition cannot go wrong

C96 and C97 bound the errors of an answer that turned out finite. Here it is stated when it does: in every IEEE 754
format, for matrices that are not too badly conditioned after scaling and whose diagonal stays away from the two ends
of the range, `cholesky` returns, nothing overflows, and underflow does no harm. -/

namespace LinfaLinalg

open Flt Matrix

/-- Numbers below half of the range are rounded to finite numbers. -/
theorem ieee_below (F : Format) (P : DotPlans) :
    ({ Rounding.ieee F with plans := P } : Rounding).Below (2 ^ (F.emax - 1)) := by
  intro y h0 h
  have h1 := F.half
  have h2 := F.one
  have hm : IsMag F (2 ^ (F.emax - 1) : ℝ) :=
    ⟨2 ^ F.mant, F.emax - 1 - F.mant, Nat.pow_lt_pow_right (by norm_num) (by omega), by omega, by omega, by
      rw [zpow_sub₀ (by norm_num : (2 : ℝ) ≠ 0) (F.emax - 1), zpow_natCast]
      push_cast
      field_simp⟩
  obtain ⟨z, hz, -⟩ := Format.round_le h0 hm h.le
  exact ⟨z, hz⟩

/-- The part of the range of a format with room on both sides. -/
theorem ieee_cholRange {F : Format} (hF : F.Wide) (P : DotPlans) {n : Nat} (hn : n + 2 ≤ 2 ^ (F.mant - 6)) :
    CholRange { Rounding.ieee F with plans := P } (2 ^ (-(F.mant : ℤ) - 1)) (2 ^ (F.emin - 1)) (2 ^ (F.emax - 1))
      (gam (2 ^ (-(F.mant : ℤ) - 1)) (n + 2)) (2 ^ (F.emin + F.mant + 5)) (2 ^ (F.emax - 4)) n := by
  obtain ⟨w1, w2, w3⟩ := hF
  have h1 := F.half
  have h2 := F.one
  set u : ℝ := 2 ^ (-(F.mant : ℤ) - 1) with hu
  have hu0 : 0 < u := by positivity
  have hnu : ((n + 2 : Nat) : ℝ) * u ≤ 1 / 128 := by
    have e1 : ((n + 2 : Nat) : ℝ) ≤ 2 ^ ((F.mant : ℤ) - 6) := by
      have : ((n + 2 : Nat) : ℝ) ≤ ((2 ^ (F.mant - 6) : Nat) : ℝ) := by exact_mod_cast hn
      refine this.trans (le_of_eq ?_)
      push_cast
      rw [← zpow_natCast]
      congr 1
      omega
    refine (mul_le_mul_of_nonneg_right e1 hu0.le).trans ?_
    rw [hu, ← zpow_add₀ (by norm_num)]
    rw [show (F.mant : ℤ) - 6 + (-(F.mant : ℤ) - 1) = -7 by ring]
    norm_num
  have hg : ((n + 2 : Nat) : ℝ) * u ≤ gam u (n + 2) := by
    unfold gam
    rw [le_div_iff₀ (by linarith)]
    nlinarith [mul_nonneg (Nat.cast_nonneg (α := ℝ) (n + 2)) hu0.le]
  have hn0 : (0 : ℝ) ≤ n := Nat.cast_nonneg n
  have hgu : 2 * u ≤ gam u (n + 2) := by
    refine le_trans ?_ hg
    push_cast
    nlinarith
  have hgn : n * u ≤ gam u (n + 2) := by
    refine le_trans ?_ hg
    push_cast
    nlinarith
  have hη : 32 * (2 : ℝ) ^ (F.emin - 1) = u * 2 ^ (F.emin + F.mant + 5) := by
    rw [hu, ← zpow_add₀ (by norm_num), show (32 : ℝ) = 2 ^ (5 : ℤ) by norm_num, ← zpow_add₀ (by norm_num)]
    congr 1; ring
  have hη0 : (0 : ℝ) < 2 ^ (F.emin - 1) := by positivity
  have hτ0 : (0 : ℝ) < 2 ^ (F.emin + F.mant + 5) := by positivity
  refine ⟨ieee_accurate F P, ieee_below F P, by linarith, le_rfl, by linarith, ?_, hτ0, ?_, ?_, ?_, ?_, ?_⟩
  · unfold gam
    rw [div_le_div_iff₀ (by linarith) (by norm_num)]
    linarith
  · have := mul_le_mul_of_nonneg_right hgn hτ0.le
    nlinarith
  · have hs : (2 : ℝ) ^ (F.emin + F.mant + 5) / 4 ≤ √(2 ^ (F.emin + F.mant + 5)) := by
      refine Real.le_sqrt_of_sq_le ?_
      have : (2 : ℝ) ^ (F.emin + F.mant + 5) ≤ 2 ^ (4 : ℤ) := zpow_le_zpow_right₀ (by norm_num) (by omega)
      norm_num at this
      nlinarith
    have := mul_le_mul hgu hs (by positivity) (by linarith)
    linarith
  · have e1 : (2 : ℝ) ^ (F.emin - 1) ≤ u := zpow_le_zpow_right₀ (by norm_num) (by omega)
    have : (n : ℝ) * 2 ^ (F.emin - 1) ≤ n * u := mul_le_mul_of_nonneg_left e1 hn0
    push_cast at hnu
    nlinarith
  · have e1 : (2 : ℝ) ^ (F.emax - 1) = 2 * (4 * 2 ^ (F.emax - 4)) := by
      rw [show F.emax - 1 = F.emax - 4 + 3 by ring, zpow_add₀ (by norm_num)]; norm_num; ring
    have e2 : (2 : ℝ) ^ (4 : ℤ) ≤ 2 ^ (F.emax - 4) := zpow_le_zpow_right₀ (by norm_num) (by omega)
    norm_num at e2
    rw [e1]
    linarith
  · have e1 : 3 * √((2 : ℝ) ^ (F.emax - 4)) = √(9 * 2 ^ (F.emax - 4)) := by
      rw [Real.sqrt_mul (by norm_num), show √(9 : ℝ) = 3 by
        rw [show (9 : ℝ) = 3 ^ 2 by norm_num]; exact Real.sqrt_sq (by norm_num)]
    have e2 : (2 : ℝ) ^ (F.emax - 1) * √(gam u (n + 2)) = √((2 ^ (F.emax - 1)) ^ 2 * gam u (n + 2)) := by
      rw [Real.sqrt_mul (by positivity), Real.sqrt_sq (by positivity)]
    rw [e1, e2]
    refine Real.sqrt_lt_sqrt (by positivity) ?_
    have e3 : ((2 : ℝ) ^ (F.emax - 1)) ^ 2 * (2 * u) ≤ (2 ^ (F.emax - 1)) ^ 2 * gam u (n + 2) :=
      mul_le_mul_of_nonneg_left hgu (by positivity)
    refine lt_of_lt_of_le ?_ e3
    have e4 : ((2 : ℝ) ^ (F.emax - 1)) ^ 2 * (2 * u) = 2 ^ (F.emax - F.mant + 2) * 2 ^ (F.emax - 4) := by
      rw [hu, sq, ← zpow_one_add₀ (by norm_num), ← zpow_add₀ (by norm_num), ← zpow_add₀ (by norm_num),
        ← zpow_add₀ (by norm_num)]
      congr 1; ring
    rw [e4]
    have e5 : (2 : ℝ) ^ (4 : ℤ) ≤ 2 ^ (F.emax - F.mant + 2) := zpow_le_zpow_right₀ (by norm_num) (by omega)
    norm_num at e5
    refine mul_lt_mul_of_pos_right ?_ (by positivity)
    linarith

/-- The rows of the factor give the product `L Lᵀ`. -/
theorem rows_mul {R : Rounding} {n : Nat} {A b : Arr2 (Flt R)} {g : ℝ} (hb : b.nr = n)
    (hs : (toMat n n (vals A)).IsSymm) (h : ∀ r, r < n → RowOk A b g r) (i j : Fin n) :
    |(toMat n n (vals (cleanLower b)) * (toMat n n (vals (cleanLower b))).transpose - toMat n n (vals A)) i j| ≤
      4 * g * (√(A.get i i).rv * √(A.get j j).rv) := by
  have key : ∀ r c : Fin n, c ≤ r →
      |(toMat n n (vals (cleanLower b)) * (toMat n n (vals (cleanLower b))).transpose - toMat n n (vals A)) r c| ≤
        4 * g * (√(A.get r r).rv * √(A.get c c).rv) := by
    intro r c hc
    have hd := (h r r.2).dot c hc
    rw [vals_cleanLower' _ hb, Matrix.sub_apply, Matrix.mul_apply]
    have e1 : ∑ k, triPart .lower (toMat n n (vals b)) r k * (triPart .lower (toMat n n (vals b))).transpose k c =
        ∑ i ∈ Finset.range (c + 1), (b.get c i).rv * (b.get r i).rv := by
      simp only [Matrix.transpose_apply, triPart_lower_apply]
      rw [← Finset.sum_range (fun k => lowEnt (vals b) r k * lowEnt (vals b) c k)]
      symm
      refine (Finset.sum_congr rfl fun k hk => ?_).trans
        (Finset.sum_subset (Finset.range_subset_range.2 (by have := c.2; omega : (c : Nat) + 1 ≤ n)) fun k _ hk => ?_)
      · have hk' : k ≤ (c : Nat) := by have := Finset.mem_range.1 hk; omega
        have hc' : (c : Nat) ≤ r := hc
        rw [lowEnt, lowEnt, if_pos hk', if_pos (hk'.trans hc'), mul_comm]
        rfl
      · have hk' : ¬ k ≤ (c : Nat) := by intro hh; exact hk (Finset.mem_range.2 (by omega))
        rw [lowEnt, lowEnt, if_neg hk', mul_zero]
    rw [e1]
    exact hd
  rcases le_total j i with hij | hij
  · exact key i j hij
  · have h1 := key j i hij
    have e : (toMat n n (vals (cleanLower b)) * (toMat n n (vals (cleanLower b))).transpose - toMat n n (vals A)) i j =
        (toMat n n (vals (cleanLower b)) * (toMat n n (vals (cleanLower b))).transpose - toMat n n (vals A)) j i := by
      have : (toMat n n (vals (cleanLower b)) * (toMat n n (vals (cleanLower b))).transpose - toMat n n (vals A)).IsSymm := by
        rw [Matrix.IsSymm, Matrix.transpose_sub, Matrix.transpose_mul, Matrix.transpose_transpose, hs.eq]
      exact this.apply j i
    rw [e, mul_comm (√(A.get i i).rv)]
    exact h1

/-- C140: in every IEEE 754 format with at least the precision and range of single precision, for every order of
summation and up to `n + 2 ≤ 2^(mant - 6)` rows: for a symmetric matrix of finite numbers that is well conditioned after
scaling its diagonal to one, with diagonal between `2⁵` times the smallest normal number and `1/16` of the largest,
`cholesky` returns. The whole factor is finite with positive diagonal, and `L Lᵀ` differs from the matrix by at most
`4 γ_(n+2) √(a i i · a j j)` in each entry: neither overflow nor underflow has any effect. `solvec` returns for every
right-hand side of the right shape. -/
theorem C140_succeeds {F : Format} (hF : F.Wide) (P : DotPlans) {n : Nat} (hn : n + 2 ≤ 2 ^ (F.mant - 6))
    (a : Arr2 (Flt { Rounding.ieee F with plans := P })) (ha : HasShape a n n)
    (hfin : ∀ r c, r < n → c ≤ r → IsFin (a.get r c)) (hs : (toMat n n (vals a)).IsSymm)
    (hlo : ∀ i, i < n → 2 ^ (F.emin + F.mant + 5) ≤ (a.get i i).rv) (hhi : ∀ i, i < n → (a.get i i).rv ≤ 2 ^ (F.emax - 4))
    (hcond : ∀ x : Fin n → ℝ, 4 * (n + 1) * gam (2 ^ (-(F.mant : ℤ) - 1)) (n + 2) * ∑ i : Fin n, (a.get i i).rv * x i ^ 2 ≤
      x ⬝ᵥ toMat n n (vals a) *ᵥ x) :
    (∃ l, cholesky a = .ok l ∧ HasShape l n n ∧ (∀ r c, r < n → c < n → IsFin (l.get r c)) ∧
      (∀ i j : Fin n, i < j → (l.get i j).rv = 0) ∧ (∀ i, i < n → 0 < (l.get i i).rv) ∧
      ∀ i j : Fin n, |(toMat n n (vals l) * (toMat n n (vals l)).transpose - toMat n n (vals a)) i j| ≤
        4 * gam (2 ^ (-(F.mant : ℤ) - 1)) (n + 2) * √((a.get i i).rv * (a.get j j).rv)) ∧
    ∀ (m : Nat) (b : Arr2 (Flt { Rounding.ieee F with plans := P })), HasShape b n m →
      ∃ x, solvec a b = .ok x ∧ HasShape x n m := by
  have C := ieee_cholRange hF P hn
  obtain ⟨rfl, ha2⟩ := ha
  have hA : CholInput a (gam (2 ^ (-(F.mant : ℤ) - 1)) (a.nr + 2)) (2 ^ (F.emin + F.mant + 5)) (2 ^ (F.emax - 4))
      (4 * (a.nr + 1) * gam (2 ^ (-(F.mant : ℤ) - 1)) (a.nr + 2)) a.nr :=
    ⟨hfin, fun r c hr hc => hs.apply ⟨c, hc⟩ ⟨r, hr⟩, hlo, hhi, hcond, le_rfl⟩
  rcases cholesky_cases a ha2.symm with ⟨b, hb, hr, hd, -⟩ | ⟨-, -, b, j, hj, hf, -⟩
  swap
  · exact (not_failed C hA hj hf).elim
  have hrow := rows_ok C hA le_rfl hr.off hr.diag
  have hpos : ∀ i, i < a.nr → 0 < (a.get i i).rv := fun i hi => C.τ0.trans_le (hlo i hi)
  have hnr := hr.nr
  refine ⟨⟨_, hb, ⟨hr.nr, hr.nc.trans ha2⟩, ?_, ?_, ?_, ?_⟩, ?_⟩
  · intro r c h1 h2
    simp only [cleanLower]
    split_ifs with h3
    · exact zero_fin
    · exact (hrow r h1).fin c (by omega)
  · intro i j hij
    simp only [cleanLower]
    have : (i : Nat) < j := hij
    rw [if_pos (by omega)]
    simp [rv, val]
  · intro i hi
    simp only [cleanLower]
    rw [if_neg (by omega)]
    exact (mul_pos (Real.sqrt_pos.2 C.g0) (Real.sqrt_pos.2 (hpos i hi))).trans_le (hrow i hi).lo
  · intro i j
    rw [Real.sqrt_mul (hpos i i.2).le]
    exact rows_mul hr.nr hs hrow i j
  · intro m y hy
    unfold solvec
    rw [hd]
    obtain ⟨z, hz, sz⟩ := (C06_shape_errors b y .lower).2.2 (by rw [hr.nr, hr.nc, ha2]) (by rw [hr.nr, hy.1])
    obtain ⟨x, hx, sx⟩ := (C06_shape_errors b.t z .upper).2.2 (by show b.nc = b.nr; rw [hr.nr, hr.nc, ha2])
      (by show z.nr = b.nc; rw [sz.1, hy.1, hr.nc, ha2])
    refine ⟨x, ?_, sx.1.trans (sz.1.trans hy.1), sx.2.trans (sz.2.trans hy.2)⟩
    simp only [ok_bind, hz, hx]

/-- C140 in double precision: up to `2^46 - 2` rows, diagonal between `2^(-1017)` and `2^1020`. -/
theorem C140_double (P : DotPlans) {n : Nat} (hn : n + 2 ≤ 2 ^ 46)
    (a : Arr2 (Flt { Rounding.ieee .double with plans := P })) (ha : HasShape a n n)
    (hfin : ∀ r c, r < n → c ≤ r → IsFin (a.get r c)) (hs : (toMat n n (vals a)).IsSymm)
    (hlo : ∀ i, i < n → 2 ^ (-1017 : ℤ) ≤ (a.get i i).rv) (hhi : ∀ i, i < n → (a.get i i).rv ≤ 2 ^ (1020 : ℤ))
    (hcond : ∀ x : Fin n → ℝ, 4 * (n + 1) * gam (2 ^ (-53 : ℤ)) (n + 2) * ∑ i : Fin n, (a.get i i).rv * x i ^ 2 ≤
      x ⬝ᵥ toMat n n (vals a) *ᵥ x) :
    ∃ l, cholesky a = .ok l ∧ HasShape l n n ∧ (∀ r c, r < n → c < n → IsFin (l.get r c)) ∧
      (∀ i j : Fin n, i < j → (l.get i j).rv = 0) ∧ (∀ i, i < n → 0 < (l.get i i).rv) ∧
      ∀ i j : Fin n, |(toMat n n (vals l) * (toMat n n (vals l)).transpose - toMat n n (vals a)) i j| ≤
        4 * gam (2 ^ (-53 : ℤ)) (n + 2) * √((a.get i i).rv * (a.get j j).rv) :=
  (C140_succeeds Format.double_wide P hn a ha hfin hs hlo hhi hcond).1

/-- C140 in single precision: up to `2^17 - 2` rows, diagonal between `2^(-121)` and `2^124`. -/
theorem C140_single (P : DotPlans) {n : Nat} (hn : n + 2 ≤ 2 ^ 17)
    (a : Arr2 (Flt { Rounding.ieee .single with plans := P })) (ha : HasShape a n n)
    (hfin : ∀ r c, r < n → c ≤ r → IsFin (a.get r c)) (hs : (toMat n n (vals a)).IsSymm)
    (hlo : ∀ i, i < n → 2 ^ (-121 : ℤ) ≤ (a.get i i).rv) (hhi : ∀ i, i < n → (a.get i i).rv ≤ 2 ^ (124 : ℤ))
    (hcond : ∀ x : Fin n → ℝ, 4 * (n + 1) * gam (2 ^ (-24 : ℤ)) (n + 2) * ∑ i : Fin n, (a.get i i).rv * x i ^ 2 ≤
      x ⬝ᵥ toMat n n (vals a) *ᵥ x) :
    ∃ l, cholesky a = .ok l ∧ HasShape l n n ∧ (∀ r c, r < n → c < n → IsFin (l.get r c)) ∧
      (∀ i j : Fin n, i < j → (l.get i j).rv = 0) ∧ (∀ i, i < n → 0 < (l.get i i).rv) ∧
      ∀ i j : Fin n, |(toMat n n (vals l) * (toMat n n (vals l)).transpose - toMat n n (vals a)) i j| ≤
        4 * gam (2 ^ (-24 : ℤ)) (n + 2) * √((a.get i i).rv * (a.get j j).rv) :=
  (C140_succeeds Format.single_wide P hn a ha hfin hs hlo hhi hcond).1

/-- The matrix `[[4·2⁻¹⁰⁰⁰, 2], [2, 5·2¹⁰⁰⁰]]`: its entries span `2000` binary orders of magnitude. -/
noncomputable def exWideSpd {R : Rounding} : Arr2 (Flt R) :=
  ⟨2, 2, fun i j => if i = j then (if i = 0 then .fin false (4 * 2 ^ (-1000 : ℤ)) else .fin false (5 * 2 ^ (1000 : ℤ)))
    else .fin false 2⟩

/-- The hypotheses of C140 are met by it, so it is decomposed without overflow. -/
theorem exWideSpd_ok (P : DotPlans) : ∃ l, cholesky (exWideSpd : Arr2 (Flt { Rounding.ieee .double with plans := P })) = .ok l ∧
    (∀ r c, r < 2 → c < 2 → IsFin (l.get r c)) ∧ ∀ i, i < 2 → 0 < (l.get i i).rv := by
  have hst : (2 : ℝ) ^ (-1000 : ℤ) * 2 ^ (1000 : ℤ) = 1 := by rw [← zpow_add₀ (by norm_num)]; norm_num
  have hs0 : (0 : ℝ) < 2 ^ (-1000 : ℤ) := by positivity
  have ht0 : (0 : ℝ) < 2 ^ (1000 : ℤ) := by positivity
  refine Exists.imp (fun l h => ⟨h.1, h.2.2.1, h.2.2.2.2.1⟩) (C140_double P (n := 2) (by norm_num)
    (exWideSpd : Arr2 (Flt { Rounding.ieee .double with plans := P })) ⟨rfl, rfl⟩ ?_ ?_ ?_ ?_ ?_)
  · intro r c hr hc
    simp only [exWideSpd]
    split_ifs <;> exact ⟨_, _, rfl⟩
  · ext i j
    fin_cases i <;> fin_cases j <;> simp [exWideSpd, vals]
  · intro i hi
    have e : (2 : ℝ) ^ (-1017 : ℤ) ≤ 2 ^ (-1000 : ℤ) := zpow_le_zpow_right₀ (by norm_num) (by norm_num)
    have e' : (2 : ℝ) ^ (-1000 : ℤ) ≤ 2 ^ (1000 : ℤ) := zpow_le_zpow_right₀ (by norm_num) (by norm_num)
    interval_cases i <;> simp only [exWideSpd, rv, val, sgn] <;> simp only [if_true, if_false, one_ne_zero, one_mul,
      Bool.false_eq_true] <;> generalize (2 : ℝ) ^ (-1000 : ℤ) = s at * <;> generalize (2 : ℝ) ^ (1000 : ℤ) = t at * <;>
      generalize (2 : ℝ) ^ (-1017 : ℤ) = w at * <;> linarith
  · intro i hi
    have e : (2 : ℝ) ^ (-1000 : ℤ) ≤ 2 ^ (1000 : ℤ) := zpow_le_zpow_right₀ (by norm_num) (by norm_num)
    have e' : (2 : ℝ) ^ (1020 : ℤ) = 2 ^ (20 : ℤ) * 2 ^ (1000 : ℤ) := by rw [← zpow_add₀ (by norm_num)]; norm_num
    rw [e', show (2 : ℝ) ^ (20 : ℤ) = 1048576 by norm_num]
    clear e'
    interval_cases i <;> simp only [exWideSpd, rv, val, sgn] <;> simp only [if_true, if_false, one_ne_zero, one_mul,
      Bool.false_eq_true] <;> generalize (2 : ℝ) ^ (-1000 : ℤ) = s at * <;> generalize (2 : ℝ) ^ (1000 : ℤ) = t at * <;>
      linarith
  · intro x
    have hg : 4 * (((2 : Nat) : ℝ) + 1) * gam (2 ^ (-53 : ℤ)) (2 + 2) ≤ 1 / 2 := by norm_num [gam]
    have hsum : ∑ i : Fin 2, ((exWideSpd : Arr2 (Flt { Rounding.ieee .double with plans := P })).get i i).rv * x i ^ 2 =
        4 * 2 ^ (-1000 : ℤ) * x 0 ^ 2 + 5 * 2 ^ (1000 : ℤ) * x 1 ^ 2 := by
      rw [Fin.sum_univ_two]
      simp [exWideSpd, rv, val, sgn]
    have hform : x ⬝ᵥ toMat 2 2 (vals (exWideSpd : Arr2 (Flt { Rounding.ieee .double with plans := P }))) *ᵥ x =
        4 * 2 ^ (-1000 : ℤ) * x 0 ^ 2 + 4 * x 0 * x 1 + 5 * 2 ^ (1000 : ℤ) * x 1 ^ 2 := by
      simp [dotProduct, mulVec, Fin.sum_univ_two, exWideSpd, vals, rv, val, sgn]
      generalize ((2 : ℝ) ^ (1000 : ℕ)) = t
      ring
    rw [hsum, hform]
    generalize (2 : ℝ) ^ (-1000 : ℤ) = s at *
    generalize (2 : ℝ) ^ (1000 : ℤ) = t at *
    have h1 : 0 ≤ 4 * s * x 0 ^ 2 + 5 * t * x 1 ^ 2 := by positivity
    have h2 := mul_le_mul_of_nonneg_right hg h1
    have h3 : 0 ≤ 2 * s * (x 0 + t * x 1) ^ 2 := by positivity
    have h4 : 2 * s * (x 0 + t * x 1) ^ 2 = 2 * s * x 0 ^ 2 + 4 * (s * t) * x 0 * x 1 + 2 * (s * t) * t * x 1 ^ 2 := by ring
    rw [hst] at h4
    have h5 : 0 ≤ t * x 1 ^ 2 := by positivity
    refine h2.trans ?_
    linarith

end LinfaLinalg
