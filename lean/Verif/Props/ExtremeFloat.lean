import Verif.Props.Extreme
import Verif.Props.Forward
import Verif.Props.RoundingSvd

/-! # C135 in floating point

The same with rounding errors, in the standard model of floating-point arithmetic: the error of a run is then the one of C84 and
of C86. -/

namespace LinfaLinalg

open Matrix

variable {R : StdModel}

/-- **C135, norm**, floating point: singular values without factors. -/
theorem C135_norm_float {m n : Nat} (fuel : Nat) (a : Arr2 (Rnd R)) (ha : HasShape a m n) (hm : m ≠ 0) (hn : n ≠ 0)
    (hR : SvdArith R m n) (u vt : Option (Arr2 (Rnd R))) (s : Arr1 (Rnd R)) (h : svd fuel a false false = .ok (u, s, vt)) :
    ∃ bot top, Extremes s.len (fun j => (s.get j).v) bot top ∧
      (∀ x : Fin n → ℝ, len (toMat m n (Rnd.vals a) *ᵥ x) ≤
        (top + svdErr R m n fuel * frob (toMat m n (Rnd.vals a))) * len x) ∧
      ∃ x : Fin n → ℝ, len x = 1 ∧
        top - svdErr R m n fuel * frob (toMat m n (Rnd.vals a)) ≤ len (toMat m n (Rnd.vals a) *ᵥ x) := by
  obtain ⟨sl, hs0, P, Q, Δ, hP, hQ, he, hd⟩ := C86_backward fuel a ha hm hn hR u s vt h
  obtain ⟨bot, top, hx⟩ := exists_extremes (by omega : 0 < min m n) fun j => (s.get j).v
  rw [sl]
  exact ⟨bot, top, hx, factors_norm hP hQ hs0 (by
    rw [← he, sub_add_cancel_left, frob_neg]
    exact hd) hx⟩

/-- **C135, smallest stretch**, floating point: singular values without factors. -/
theorem C135_smallest_float {m n : Nat} (fuel : Nat) (a : Arr2 (Rnd R)) (ha : HasShape a m n) (hm : m ≠ 0) (hn : n ≠ 0)
    (hnm : n ≤ m) (hR : SvdArith R m n) (u vt : Option (Arr2 (Rnd R))) (s : Arr1 (Rnd R))
    (h : svd fuel a false false = .ok (u, s, vt)) :
    ∃ bot top, Extremes s.len (fun j => (s.get j).v) bot top ∧
      SvMin (toMat m n (Rnd.vals a)) (bot - svdErr R m n fuel * frob (toMat m n (Rnd.vals a))) ∧
      ∃ x : Fin n → ℝ, len x = 1 ∧
        len (toMat m n (Rnd.vals a) *ᵥ x) ≤ bot + svdErr R m n fuel * frob (toMat m n (Rnd.vals a)) := by
  obtain ⟨sl, hs0, P, Q, Δ, hP, hQ, he, hd⟩ := C86_backward fuel a ha hm hn hR u s vt h
  obtain ⟨bot, top, hx⟩ := exists_extremes (by omega : 0 < min m n) fun j => (s.get j).v
  rw [sl]
  exact ⟨bot, top, hx, factors_smallest hP hQ (min_eq_right hnm) hs0 (by
    rw [← he, sub_add_cancel_left, frob_neg]
    exact hd) hx⟩

/-- **C135, a checked solution**: the smallest singular value computed in floating point says how far the solution computed in
floating point is from the exact one. No knowledge of the exact spectrum enters: `c` is read off the output of `svd`. -/
theorem C135_solve_float {n k : Nat} (fuel : Nat) (a b : Arr2 (Rnd R)) (ha : HasShape a n n) (hb : HasShape b n k) (hn : n ≠ 0)
    (hR : SvdArith R n n) (hu : ((5 * n + 31 : Nat) : ℝ) * R.u < 1) (u vt : Option (Arr2 (Rnd R))) (s : Arr1 (Rnd R))
    (h : svd fuel a false false = .ok (u, s, vt)) (c : ℝ) (hc : 0 < c)
    (hs : ∀ j < s.len, c + svdErr R n n fuel * frob (toMat n n (Rnd.vals a)) ≤ (s.get j).v)
    (hsmall : 2 * (solveErr R n n * frob (toMat n n (Rnd.vals a))) ≤ c) :
    ∃ q x, qrInto a = .ok q ∧ q.solveInto b = .ok x ∧ leastSquares a b = .ok x ∧ HasShape x n k ∧
      ∀ (j : Fin k) (ξ : Fin n → ℝ), toMat n n (Rnd.vals a) *ᵥ ξ = (toMat n k (Rnd.vals b)).col j →
      len ((toMat n k (Rnd.vals x)).col j - ξ) ≤
        2 * (solveErr R n n + reflErrs R n n) * (frob (toMat n n (Rnd.vals a)) / c) * len ξ := by
  obtain ⟨_, _, ⟨⟨j, hj, rfl⟩, -⟩, hmin, -⟩ := C135_smallest_float fuel a ha hn hn le_rfl hR u vt s h
  refine C122_solve a b ha hb hu c hc (fun x => ?_) hsmall
  exact (mul_le_mul_of_nonneg_right (by linarith [hs j hj]) (len_nonneg x)).trans (hmin x)

/-- **C135, quadratic form**, floating point. -/
theorem C135_quadratic_form_float {n : Nat} (fuel : Nat) (a : Arr2 (Rnd R)) (ha : HasShape a n n) (hn : 0 < n)
    (hs : (toMat n n (Rnd.vals a)).IsSymm) (hR : EigArith R n) (vals : Arr1 (Rnd R)) (h : eigvalsh fuel a = .ok vals) :
    ∃ bot top, Extremes n (fun j => (vals.get j).v) bot top ∧
      (∀ x : Fin n → ℝ, (bot - eigErr R n fuel * frob (toMat n n (Rnd.vals a))) * len x ^ 2 ≤
          x ⬝ᵥ toMat n n (Rnd.vals a) *ᵥ x ∧
        x ⬝ᵥ toMat n n (Rnd.vals a) *ᵥ x ≤ (top + eigErr R n fuel * frob (toMat n n (Rnd.vals a))) * len x ^ 2) ∧
      ∀ i < n, ∃ x : Fin n → ℝ, len x = 1 ∧
        |x ⬝ᵥ toMat n n (Rnd.vals a) *ᵥ x - (vals.get i).v| ≤ eigErr R n fuel * frob (toMat n n (Rnd.vals a)) := by
  obtain ⟨q, hq⟩ := (C27_eigvalsh_eq_eigh fuel a).1 vals |>.1 h
  obtain ⟨-, P, Δ, hP, he, hd⟩ := C84_backward fuel a ha hs hR vals q hq
  obtain ⟨bot, top, hx⟩ := exists_extremes hn fun j => (vals.get j).v
  exact ⟨bot, top, hx, factors_quadratic (σ := Equiv.refl _) hP (by
    simp only [Equiv.refl_apply]
    rw [← he, sub_add_cancel_left, frob_neg]
    exact hd) hx⟩

theorem quad_single {n : Nat} (A : Matrix (Fin n) (Fin n) ℝ) (i : Fin n) :
    Pi.single i 1 ⬝ᵥ A *ᵥ Pi.single i 1 = A i i ∧ len (Pi.single i (1 : ℝ)) = 1 := by
  constructor
  · simp
  · rw [len, Finset.sum_eq_single i (fun l _ hl => by rw [Pi.single_eq_of_ne hl]; norm_num) (by simp)]
    simp

/-- **C135, definiteness**, floating point, accepted: if the values computed by `eigvalsh` are positive beyond the errors of the
two runs, then `cholesky` succeeds on the same matrix in the same arithmetic. -/
theorem C135_accepted_float {n : Nat} (fuel : Nat) (a : Arr2 (Rnd R)) (ha : HasShape a n n)
    (hs : (toMat n n (Rnd.vals a)).IsSymm) (hR : EigArith R n) (hu : ((n + 2 : Nat) : ℝ) * R.u < 1) (vals : Arr1 (Rnd R))
    (h : eigvalsh fuel a = .ok vals) (c t : ℝ) (hc : 0 < c)
    (hv : ∀ i < n, c + eigErr R n fuel * frob (toMat n n (Rnd.vals a)) ≤ (vals.get i).v ∧
      (vals.get i).v + eigErr R n fuel * frob (toMat n n (Rnd.vals a)) ≤ t)
    (hct : 2 * n * gam R.u (n + 2) * t < c * (1 - gam R.u (n + 2))) : ∃ l, cholesky a = .ok l := by
  rcases Nat.eq_zero_or_pos n with rfl | hn
  · rcases cholesky_cases a (ha.1.trans ha.2.symm) with ⟨l, hl, -⟩ | ⟨-, -, l, j, hj, -⟩
    · exact ⟨_, hl⟩
    · rw [ha.1] at hj
      omega
  obtain ⟨_, _, ⟨⟨lo, hlo, rfl⟩, ⟨hi, hhi, rfl⟩, -⟩, hq, -⟩ := C135_quadratic_form_float fuel a ha hn hs hR vals h
  have h1 : ∀ x : Fin n → ℝ, c * len x ^ 2 ≤ x ⬝ᵥ toMat n n (Rnd.vals a) *ᵥ x ∧
      x ⬝ᵥ toMat n n (Rnd.vals a) *ᵥ x ≤ t * len x ^ 2 := fun x =>
    ⟨(mul_le_mul_of_nonneg_right (by linarith [(hv lo hlo).1]) (sq_nonneg _)).trans (hq x).1,
      (hq x).2.trans (mul_le_mul_of_nonneg_right (by linarith [(hv hi hhi).2]) (sq_nonneg _))⟩
  have h2 : ∀ i : Fin n, c ≤ (a.get i i).v ∧ (a.get i i).v ≤ t := fun i => by
    obtain ⟨e1, e2⟩ := quad_single (toMat n n (Rnd.vals a)) i
    have := h1 (Pi.single i 1)
    rw [e1, e2, one_pow, mul_one, mul_one] at this
    exact this
  have ht : 0 < t := by linarith [(h2 ⟨0, hn⟩).1, (h2 ⟨0, hn⟩).2]
  refine (C69_succeeds a a ha ha hs hu (c / t) (div_pos hc ht) (fun i hi => lt_of_lt_of_le hc (h2 ⟨i, hi⟩).1)
    (fun x => le_trans ?_ (h1 x).1) ?_).1
  · rw [div_mul_eq_mul_div, div_le_iff₀ ht, mul_assoc]
    refine mul_le_mul_of_nonneg_left ?_ hc.le
    rw [len_sq, dotProduct, Finset.sum_mul]
    refine Finset.sum_le_sum fun i _ => ?_
    nlinarith [(h2 i).2, mul_self_nonneg (x i)]
  · rw [div_mul_eq_mul_div, lt_div_iff₀ ht]
    exact hct

/-- **C135, definiteness**, floating point, rejected: if a value computed by `eigvalsh` is negative beyond the errors of the two
runs, then `cholesky` reports that the same matrix is not positive definite. -/
theorem C135_rejected_float {n : Nat} (fuel : Nat) (a : Arr2 (Rnd R)) (ha : HasShape a n n)
    (hs : (toMat n n (Rnd.vals a)).IsSymm) (hR : EigArith R n) (hu : ((n + 2 : Nat) : ℝ) * R.u < 1)
    (hg : gam R.u (n + 2) < 1) (vals : Arr1 (Rnd R)) (h : eigvalsh fuel a = .ok vals) (i : Nat) (hi : i < n)
    (hv : (vals.get i).v < -(eigErr R n fuel * frob (toMat n n (Rnd.vals a)) +
      gam R.u (n + 2) / (1 - gam R.u (n + 2)) * ∑ i : Fin n, |(a.get i i).v|)) :
    cholesky a = .error (.err .notPositiveDefinite) := by
  rcases cholesky_cases a (ha.1.trans ha.2.symm) with ⟨l, hl, -⟩ | ⟨hb, -⟩
  swap
  · exact hb
  exfalso
  obtain ⟨-, -, -, hF⟩ := C66_backward_error a _ ha hs hu hl
  replace hF := hF hg
  generalize hL : toMat n n (Rnd.vals _) = L at hF
  obtain ⟨-, -, -, -, hq⟩ := C135_quadratic_form_float fuel a ha (by omega) hs hR vals h
  obtain ⟨x, hx, he⟩ := hq i hi
  have hg0 : 0 ≤ gam R.u (n + 2) / (1 - gam R.u (n + 2)) := div_nonneg (gam_nonneg R.u_nonneg hu) (by linarith)
  have h1 : 0 ≤ x ⬝ᵥ (L * Lᵀ) *ᵥ x := by
    rw [← mulVec_mulVec, dotProduct_comm, mulVec_dot]
    exact Finset.sum_nonneg fun i _ => mul_self_nonneg _
  have h2 : x ⬝ᵥ (L * Lᵀ - toMat n n (Rnd.vals a)) *ᵥ x ≤
      gam R.u (n + 2) / (1 - gam R.u (n + 2)) * ∑ i : Fin n, |(a.get i i).v| := by
    have h3 : ∀ i j, x i * ((L * Lᵀ - toMat n n (Rnd.vals a)) i j * x j) ≤ gam R.u (n + 2) / (1 - gam R.u (n + 2)) *
        ((|x i| * Real.sqrt |(a.get i i).v|) * (|x j| * Real.sqrt |(a.get j j).v|)) := fun i j => by
      refine (le_abs_self _).trans ?_
      rw [abs_mul, abs_mul]
      have h4 := hF i j
      have h5 : Real.sqrt ((a.get i i).v * (a.get j j).v) ≤ Real.sqrt |(a.get i i).v| * Real.sqrt |(a.get j j).v| := by
        rw [← Real.sqrt_mul (abs_nonneg _), ← abs_mul]
        exact Real.sqrt_le_sqrt (le_abs_self _)
      have h6 := h4.trans (mul_le_mul_of_nonneg_left h5 hg0)
      calc _ = |x i| * |x j| * |(L * Lᵀ - toMat n n (Rnd.vals a)) i j| := by ring
        _ ≤ |x i| * |x j| * _ := mul_le_mul_of_nonneg_left h6 (mul_nonneg (abs_nonneg _) (abs_nonneg _))
        _ = _ := by ring
    calc x ⬝ᵥ (L * Lᵀ - toMat n n (Rnd.vals a)) *ᵥ x
        = ∑ i, ∑ j, x i * ((L * Lᵀ - toMat n n (Rnd.vals a)) i j * x j) := by
          simp only [dotProduct, mulVec, Finset.mul_sum]
      _ ≤ ∑ i : Fin n, ∑ j : Fin n, gam R.u (n + 2) / (1 - gam R.u (n + 2)) *
          ((|x i| * Real.sqrt |(a.get i i).v|) * (|x j| * Real.sqrt |(a.get j j).v|)) :=
          Finset.sum_le_sum fun i _ => Finset.sum_le_sum fun j _ => h3 i j
      _ = gam R.u (n + 2) / (1 - gam R.u (n + 2)) * (∑ i : Fin n, |x i| * Real.sqrt |(a.get i i).v|) ^ 2 := by
          rw [sq, Finset.sum_mul_sum, Finset.mul_sum]
          exact Finset.sum_congr rfl fun i _ => (Finset.mul_sum _ _ _).symm
      _ ≤ _ := by
          refine mul_le_mul_of_nonneg_left ?_ hg0
          refine (Finset.sum_mul_sq_le_sq_mul_sq Finset.univ (fun i : Fin n => |x i|) _).trans ?_
          have e1 : ∑ i : Fin n, |x i| ^ 2 = 1 := by
            have := len_sq x
            rw [hx] at this
            rw [← one_pow 2, this]
            exact Finset.sum_congr rfl fun i _ => by rw [sq_abs, sq]
          rw [e1, one_mul]
          exact (Finset.sum_congr rfl fun i _ => Real.sq_sqrt (abs_nonneg _)).le
  rw [sub_mulVec, dotProduct_sub] at h2
  have h7 := (abs_le.1 he).2
  linarith

/-! ## The hypotheses are met -/

theorem eigLoop_two_rnd (hu : 10 * R.uw < 1) {eps : Rnd R} {st : EigState (Rnd R)} (h : EigShape 2 eps st) :
    ∃ st', eigLoop eps 1 st = .ok st' := by
  unfold eigLoop
  by_cases hne : st.end = st.start
  · rw [if_pos hne]; exact ⟨_, rfl⟩
  · rw [if_neg hne]
    have hlt := h.lt
    have hle := h.le
    have := wp_eigStep (E := fun _ => False) h hne (fun m => m.end = 0) ?_ ?_
    · obtain ⟨st', e, -, mid, hm, -, -, -, -, ds⟩ := succeeds_iff.1 this
      rw [e]
      simp only [ok_bind]
      have d1 := ds.le
      have d2 : st'.end = 0 := by omega
      have d3 := ds.zero d2
      unfold eigLoop
      rw [if_pos (by omega)]
      exact ⟨_, rfl⟩
    · intro hs
      rw [eig2x2_eq h hs]
      obtain ⟨l0, l1, -, -, hc, -⟩ := compute2x2_rnd hu (st.diag.get st.start) (st.off.get st.start)
        (st.diag.get (st.start + 1))
      rw [hc]
      simp only [wp_ok]
      omega
    · intro r e hs; omega

/-- With rounding errors as well, `eigvalsh` returns on every `2 × 2` matrix. -/
theorem eigvalsh_two_rnd (hu : 10 * R.uw < 1) (a : Arr2 (Rnd R)) (ha : HasShape a 2 2) : ∃ v, eigvalsh 1 a = .ok v := by
  obtain ⟨t, -, -, q, -, hev, -, -, h2⟩ := symmetricEig_cases 1 a false (NdFloat.epsilon : Rnd R)
    (by rw [ha.1, ha.2]) (by rw [ha.1]; omega)
  obtain ⟨off, s, e, -, -, hsh, heq⟩ := h2 (by rw [ha.1]; omega)
  rw [ha.1] at hsh
  obtain ⟨st', hst⟩ := eigLoop_two_rnd hu hsh
  unfold eigvalsh eigvalshInto
  rw [heq, hst]
  exact ⟨_, rfl⟩

theorem eigErr_example : 0 ≤ eigErr .double 2 1 ∧ eigErr .double 2 1 ≤ 1 / 10 ^ 10 := by
  constructor <;> norm_num [StdModel.double, rotErr, deflErr, gam, triErr, StdModel.uw, eigErr]

theorem eigTerm_example {A : Matrix (Fin 2) (Fin 2) ℝ} (h : ∀ i j, |A i j| ≤ 5) :
    eigErr .double 2 1 * frob A ≤ 1 / 10 ^ 9 := by
  have hf : frob A ≤ 10 := by
    refine Real.sqrt_le_iff.2 ⟨by norm_num, ?_⟩
    have hs : ∀ i j, A i j ^ 2 ≤ 25 := fun i j => by
      rw [← sq_abs]
      nlinarith [h i j, abs_nonneg (A i j)]
    simp only [Fin.sum_univ_two]
    linarith [hs 0 0, hs 0 1, hs 1 0, hs 1 1]
  calc _ ≤ 1 / 10 ^ 10 * (10 : ℝ) := mul_le_mul eigErr_example.2 hf (frob_nonneg _) (by norm_num)
    _ = _ := by norm_num

/-- In double precision: the values of `[[4, 2], [2, 5]]` are positive enough. -/
example : ∃ vals, eigvalsh 1 (exRndSpd .double) = .ok vals ∧ (∀ i < 2, 1 / 4 +
      eigErr .double 2 1 * frob (toMat 2 2 (Rnd.vals (exRndSpd .double))) ≤ (vals.get i).v ∧
      (vals.get i).v + eigErr .double 2 1 * frob (toMat 2 2 (Rnd.vals (exRndSpd .double))) ≤ 10) ∧
    ∃ l, cholesky (exRndSpd .double) = .ok l := by
  have e : toMat 2 2 (Rnd.vals (exRndSpd StdModel.double)) = !![4, 2; 2, 5] := by
    ext i j
    fin_cases i <;> fin_cases j <;> simp [exRndSpd, Rnd.vals, ofRows]
  have hs : (toMat 2 2 (Rnd.vals (exRndSpd StdModel.double))).IsSymm := by
    rw [e]
    ext i j
    fin_cases i <;> fin_cases j <;> simp
  have ht := eigTerm_example (A := toMat 2 2 (Rnd.vals (exRndSpd StdModel.double))) fun i j => by
    rw [e]
    fin_cases i <;> fin_cases j <;> norm_num
  obtain ⟨vals, h⟩ := eigvalsh_two_rnd (by norm_num [StdModel.double, StdModel.uw]) (exRndSpd StdModel.double) ⟨rfl, rfl⟩
  obtain ⟨-, -, -, -, hq⟩ := C135_quadratic_form_float (n := 2) 1 _ ⟨rfl, rfl⟩ two_pos hs (eigArith_double (by norm_num)) vals h
  have hall : ∀ i < 2, 1 / 4 + eigErr .double 2 1 * frob (toMat 2 2 (Rnd.vals (exRndSpd .double))) ≤ (vals.get i).v ∧
      (vals.get i).v + eigErr .double 2 1 * frob (toMat 2 2 (Rnd.vals (exRndSpd .double))) ≤ 10 := fun i hi => by
    obtain ⟨x, hx, he⟩ := hq i hi
    have h1 : x ⬝ᵥ toMat 2 2 (Rnd.vals (exRndSpd .double)) *ᵥ x = 4 * x 0 ^ 2 + 4 * x 0 * x 1 + 5 * x 1 ^ 2 := by
      rw [e]
      simp [dotProduct, mulVec, Fin.sum_univ_two]
      ring
    have h2 : x 0 ^ 2 + x 1 ^ 2 = 1 := by
      have := len_sq x
      rw [hx, dotProduct, Fin.sum_univ_two] at this
      linarith
    rw [h1] at he
    obtain ⟨h3, h4⟩ := abs_le.1 he
    norm_num at ht
    constructor
    · nlinarith [sq_nonneg (x 0 + x 1)]
    · nlinarith [sq_nonneg (x 0 - x 1)]
  exact ⟨vals, h, hall, C135_accepted_float (n := 2) 1 _ ⟨rfl, rfl⟩ hs (eigArith_double (by norm_num))
    (by norm_num [StdModel.double]) vals h (1 / 4) 10 (by norm_num) hall (by norm_num [gam, StdModel.double])⟩

/-- In double precision: one of the values of `[[-1, 3u], [3u, 5/16 + u]]` is negative enough. -/
example : cholesky exDbl = .error (.err .notPositiveDefinite) := by
  have ht := eigTerm_example (A := toMat 2 2 (Rnd.vals exDbl)) fun i j => by
    fin_cases i <;> fin_cases j <;> simp [toMat_apply, Rnd.vals, exDbl, ofRows] <;> norm_num [abs_le]
  obtain ⟨vals, h⟩ := eigvalsh_two_rnd (by norm_num [StdModel.double, StdModel.uw]) exDbl ⟨rfl, rfl⟩
  obtain ⟨_, _, ⟨⟨lo, hlo, rfl⟩, -⟩, hq, -⟩ := C135_quadratic_form_float (n := 2) 1 _ ⟨rfl, rfl⟩ two_pos exDbl_symm
    (eigArith_double (by norm_num)) vals h
  refine C135_rejected_float (n := 2) 1 _ ⟨rfl, rfl⟩ exDbl_symm (eigArith_double (by norm_num)) (by norm_num [StdModel.double])
    (by norm_num [gam, StdModel.double]) vals h lo hlo ?_
  obtain ⟨e1, e2⟩ := quad_single (toMat 2 2 (Rnd.vals exDbl)) 0
  have h1 := (hq (Pi.single 0 1)).1
  rw [e1, e2] at h1
  have e3 : toMat 2 2 (Rnd.vals exDbl) 0 0 = -1 := by simp [toMat_apply, Rnd.vals, exDbl, ofRows]
  rw [e3] at h1
  have h2 : gam StdModel.double.u (2 + 2) / (1 - gam StdModel.double.u (2 + 2)) *
      ∑ i : Fin 2, |((exDbl : Arr2 (Rnd .double)).get i i).v| ≤ 1 / 4 := by
    have : ∑ i : Fin 2, |((exDbl : Arr2 (Rnd .double)).get i i).v| ≤ 2 := by
      simp [Fin.sum_univ_two, exDbl, ofRows]
      norm_num [abs_le]
    refine (mul_le_mul_of_nonneg_left this (by norm_num [gam, StdModel.double])).trans ?_
    norm_num [gam, StdModel.double]
  norm_num at ht
  linarith

/-- In double precision, for `[[2, 0], [1, 3]]`: the values of `svd` show that the solution is accurate. -/
example (b : Arr2 (Rnd .double)) (hb : HasShape b 2 3) : ∃ u s vt, svd 1 (exRnd .double) false false = .ok (u, s, vt) ∧
    (∀ j < s.len, 1 / 2 + svdErr .double 2 2 1 * frob (toMat 2 2 (Rnd.vals (exRnd .double))) ≤ (s.get j).v) ∧
    ∃ q x, qrInto (exRnd .double) = .ok q ∧ q.solveInto b = .ok x := by
  obtain ⟨⟨u, s, vt⟩, h⟩ := svdGo_small (exRnd .double) false false (NdFloat.epsilon * NdFloat.ofRat 5) 0
    (by simp [exRnd, ofRows]) (by simp [exRnd, ofRows]) (by simp [exRnd, ofRows])
  have hA : SvdArith .double 2 2 := svdArith_double (by norm_num) (by norm_num)
  obtain ⟨_, _, ⟨-, -, hmin⟩, -, x, hx, he⟩ := C135_smallest_float (m := 2) (n := 2) 1 (exRnd .double) ⟨rfl, rfl⟩ two_ne_zero
    two_ne_zero le_rfl hA u vt s h
  have hf : frob (toMat 2 2 (Rnd.vals (exRnd .double))) ≤ 4 := by
    rw [exRnd_vals]
    refine Real.sqrt_le_iff.2 ⟨by norm_num, ?_⟩
    simp [Fin.sum_univ_two]; norm_num
  have h0 : 0 ≤ svdErr .double 2 2 1 := by
    norm_num [StdModel.double, svdRotErr, svdDeflErr, gam, StdModel.uw, svdOps, reflErrs, reflErr, svdErr, svdFac]
  have ht : svdErr .double 2 2 1 * frob (toMat 2 2 (Rnd.vals (exRnd .double))) ≤ 1 / 8 := by
    refine (mul_le_mul_of_nonneg_left hf h0).trans ?_
    norm_num [StdModel.double, svdRotErr, svdDeflErr, gam, StdModel.uw, svdOps, reflErrs, reflErr, svdErr, svdFac]
  have hl : 1 ≤ len (toMat 2 2 (Rnd.vals (exRnd .double)) *ᵥ x) := by
    refine abs_le_of_sq_le_sq' ?_ (len_nonneg _) |>.2
    have h1 := len_sq x
    rw [hx, dotProduct, Fin.sum_univ_two] at h1
    rw [len_sq, exRnd_vals]
    simp [dotProduct, mulVec, Fin.sum_univ_two]
    nlinarith [sq_nonneg (x 0 + x 1), sq_nonneg (2 * x 0 + x 1), sq_nonneg (x 0 + 2 * x 1)]
  have hall : ∀ j < s.len, 1 / 2 + svdErr .double 2 2 1 * frob (toMat 2 2 (Rnd.vals (exRnd .double))) ≤ (s.get j).v :=
    fun j hj => by
      have := (hmin j hj).1
      linarith
  have hs : solveErr StdModel.double 2 2 ≤ 1 / 100 := by
    norm_num [solveErr, reflErrs, reflErr, gam, StdModel.double]
  obtain ⟨q, y, g1, g2, -⟩ := C135_solve_float (n := 2) (k := 3) 1 (exRnd .double) b ⟨rfl, rfl⟩ hb two_ne_zero hA
    (by norm_num [StdModel.double]) u vt s h (1 / 2) (by norm_num) hall (by
      have := mul_le_mul hs hf (frob_nonneg _) (by norm_num)
      linarith)
  exact ⟨u, s, vt, h, hall, q, y, g1, g2⟩

end LinfaLinalg
