import Verif.Proofs.EighCycle
import Verif.Props.EighTerm

/-! # C89: `/repo/src/eigh.rs` does not return on every symmetric matrix

Exact real arithmetic. `fuel` is the number of iterations the main loop of `symmetric_eig` is given, and
`.error .fuel` means that it is still running. -/

namespace LinfaLinalg

open Matrix Polynomial

/-- The tridiagonal matrix with the entries `x`, `y`, `z` on and `b`, `p` beside the diagonal. -/
def tri3 (x y z b p : ℝ) : Matrix (Fin 3) (Fin 3) ℝ := !![x, b, 0; b, y, p; 0, p, z]

/-- The characteristic polynomial of a tridiagonal matrix, and Cayley and Hamilton's theorem for it. -/
theorem tri3_spectrum {x y z b p : ℝ} (h1 : x + y + z = 0)
    (h2 : x * y + x * z + y * z - b * b - p * p = -1) (h3 : x * (y * z - p * p) - b * b * z = 0) :
    (tri3 x y z b p).charpoly = X ^ 3 - X ∧
      tri3 x y z b p * tri3 x y z b p * tri3 x y z b p = tri3 x y z b p := by
  constructor
  · have e1 : (C x + C y + C z : ℝ[X]) = 0 := by rw [← C_add, ← C_add, h1, C_0]
    have e2 : (C x * C y + C x * C z + C y * C z - C b * C b - C p * C p : ℝ[X]) = -1 := by
      simp only [← C_add, ← C_mul, ← C_sub, h2, C_neg, C_1]
    have e3 : (C x * (C y * C z - C p * C p) - C b * C b * C z : ℝ[X]) = 0 := by
      simp only [← C_mul, ← C_sub, h3, C_0]
    rw [Matrix.charpoly, Matrix.det_fin_three]
    simp [tri3]
    linear_combination (-X ^ 2) * e1 + X * e2 - e3
  · ext i j
    fin_cases i <;> fin_cases j <;> simp [tri3]
    · linear_combination (x * x + b * b) * h1 - x * h2 + h3
    · linear_combination (x * b + b * y) * h1 - b * h2
    · linear_combination (b * p) * h1
    · linear_combination (x * b + b * y) * h1 - b * h2
    · linear_combination (b * b + y * y + p * p) * h1 - y * h2 + h3
    · linear_combination (y * p + p * z) * h1 - p * h2
    · linear_combination (b * p) * h1
    · linear_combination (y * p + p * z) * h1 - p * h2
    · linear_combination (p * p + z * z) * h1 - z * h2 + h3

/-- The matrix with the coordinates `x`. -/
theorem exists_tri3 {x : ℝ × ℝ} (hx : x ∈ cycD) : ∃ b p : ℝ, 0 < b ∧ 0 < p ∧ p ^ 2 = cycP x ∧
    (-(cycY x + cycZ x)) + cycY x + cycZ x = 0 ∧
    (-(cycY x + cycZ x)) * cycY x + (-(cycY x + cycZ x)) * cycZ x + cycY x * cycZ x - b * b - p * p = -1 ∧
    (-(cycY x + cycZ x)) * (cycY x * cycZ x - p * p) - b * b * cycZ x = 0 := by
  obtain ⟨Y, Z, P, e1, e2, e3, b1, b2, b3, b4, b5, b6⟩ := cyc_basic hx
  obtain ⟨s1, s2, s3, s4⟩ := id hx
  have hP : 0 < cycP x := by
    rw [e3]
    positivity
  set B := 1 - cycP x - (cycY x + cycZ x) ^ 2 + cycY x * cycZ x with hB
  have hB0 : 0 < B := by
    rw [hB, e1, e2, e3]
    have q : x.1 ^ 2 ≤ 1 / 400 := by nlinarith
    have q0 : 0 < x.1 ^ 2 := by positivity
    have hY0 : 0 ≤ Y := by linarith
    have a1 : (Y + Z) ^ 2 ≤ 4 := by nlinarith
    have a2 : 0 ≤ Y * Z := by positivity
    have a3 : P * x.1 ^ 2 ≤ 1 * (1 / 400) := by gcongr
    have a4 : (Y + Z) ^ 2 * x.1 ^ 2 ≤ 4 * (1 / 400) := by gcongr
    have a5 : 0 ≤ Y * Z * x.1 ^ 2 := by positivity
    have e : 1 - P * x.1 ^ 2 - (Y * x.1 + Z * x.1) ^ 2 + Y * x.1 * (Z * x.1) =
      1 - P * x.1 ^ 2 - (Y + Z) ^ 2 * x.1 ^ 2 + Y * Z * x.1 ^ 2 := by ring
    rw [e]
    linarith
  have hb : Real.sqrt B * Real.sqrt B = B := Real.mul_self_sqrt hB0.le
  have hp : Real.sqrt (cycP x) * Real.sqrt (cycP x) = cycP x := Real.mul_self_sqrt hP.le
  refine ⟨Real.sqrt B, Real.sqrt (cycP x), Real.sqrt_pos.2 hB0, Real.sqrt_pos.2 hP, Real.sq_sqrt hP.le,
    by ring, ?_, ?_⟩
  · rw [hb, hp, hB]; ring
  · rw [hb, hp, hB]
    -- the third moment
    have key : cycY x * cycP x + 2 * cycZ x * cycP x + cycZ x ^ 3 = cycZ x := by
      have hd := (cyc_den hx).1
      have hN : 0 < 1 + x.1 ^ 2 := by positivity
      unfold cycY cycZ cycP
      set M := 1 + x.1 ^ 2 - x.2 ^ 2 * x.1 ^ 4 with hM
      field_simp
      rw [hM]
      ring
    linear_combination key

/-- C89: there is a symmetric 3×3 matrix, with the eigenvalues `1`, `0` and `-1`, on which `eigh` and
`eigvalsh` never return: however many iterations the main loop is given, it is still running. The tests on
the off-diagonal entries compare them with the neighbouring diagonal entries; on this matrix the last two
diagonal entries tend to zero as fast as the off-diagonal entry between them. Exact real arithmetic. -/
theorem C89_eigh_runs_forever : ∃ a : Arr2 ℝ, HasShape a 3 3 ∧ (toMat 3 3 a).IsSymm ∧
    (toMat 3 3 a).charpoly = X ^ 3 - X ∧
    ∀ fuel, eigh fuel a = .error .fuel ∧ eigvalsh fuel a = .error .fuel := by
  obtain ⟨r, hr⟩ := exists_cycle
  have hx := hr 0
  obtain ⟨b, p, hb, hp, hpp, h1, h2, h3⟩ := exists_tri3 hx
  simp only [Function.iterate_zero, id] at hx h1 h2 h3 hpp
  set x : ℝ × ℝ := (1 / 20, r) with hxd
  set X0 := -(cycY x + cycZ x) with hX0
  obtain ⟨hch, hcube⟩ := tri3_spectrum h1 h2 h3
  set a : Arr2 ℝ := ofRows 3 3 [[X0, b, 0], [b, cycY x, p], [0, p, cycZ x]] with ha
  have hsa : HasShape a 3 3 := ⟨rfl, rfl⟩
  have hT : toMat 3 3 a = tri3 X0 (cycY x) (cycZ x) b p := by
    ext i j
    fin_cases i <;> fin_cases j <;> simp [ha, ofRows, tri3]
  have hsym : (toMat 3 3 a).IsSymm := by
    rw [hT]
    ext i j
    fin_cases i <;> fin_cases j <;> simp [tri3]
  refine ⟨a, hsa, hsym, by rw [hT, hch], ?_⟩
  suffices h : ∀ fuel, symmetricEig fuel a true (NdFloat.epsilon : ℝ) = .error .fuel by
    intro fuel
    have h1 : eigh fuel a = .error .fuel := by
      unfold eigh eighInto
      rw [h fuel, error_bind]
    exact ⟨h1, ((C27_eigvalsh_eq_eigh fuel a).2.1 _).2 h1⟩
  obtain ⟨κ, hκ, hA0⟩ := scaleDown_factor a hsa (by omega)
  obtain ⟨s1, -, -, -⟩ := scaleDown_real a hsa (by omega) (by omega)
  have hget : ∀ i j : Fin 3, (a.scaleDown a.amax).get i j = κ * tri3 X0 (cycY x) (cycZ x) b p i j := by
    intro i j
    have := congrFun (congrFun hA0 i) j
    rw [hT] at this
    simpa using this
  obtain ⟨t, ht, t0, t1, t2, o0, o1⟩ := symTridiagonal_tri3 (x := κ * X0) (y := κ * cycY x)
    (z := κ * cycZ x) (b := κ * b) (p := κ * p) (by positivity) (by positivity) (a.scaleDown a.amax) s1
    (by simpa [tri3] using hget 0 0) (by simpa [tri3] using hget 1 0) (by simpa [tri3] using hget 2 0)
    (by simpa [tri3] using hget 1 1) (by simpa [tri3] using hget 1 2) (by simpa [tri3] using hget 2 1)
    (by simpa [tri3] using hget 2 2)
  obtain ⟨t', off, q, s, e, ht', ds, hsh, hre, hsys⟩ := symmetricEig_start a
    (eps := (NdFloat.epsilon : ℝ)) eps_pos.le hsa (by omega) hsym
  rw [ht, Except.ok.injEq] at ht'
  subst ht'
  have hinv : CycInv κ x t.intoDiagonals.1.get (eff t.intoDiagonals.2 2) := by
    have htri : tridiag 3 t.intoDiagonals.1.get (eff t.intoDiagonals.2 2) =
        κ • tri3 X0 (cycY x) (cycZ x) b p := by
      rw [tridiag3, eff_of_lt _ (by omega), eff_of_lt _ (by omega)]
      simp only [TridiagonalDecomp.intoDiagonals, Arr2.diag, Arr1.map, real_abs]
      rw [t0, t1, t2, o0, o1]
      ext i j
      fin_cases i <;> fin_cases j <;> simp [tri3]
    refine ⟨?_, ?_, ?_, ?_, ?_⟩
    · rw [htri]
      simp only [Matrix.smul_mul, Matrix.mul_smul, hcube, smul_smul]
      congr 1
      ring
    · rw [htri]
      simp [tri3, Matrix.trace_fin_three]
      rw [← mul_add, ← mul_add, h1, mul_zero]
    · rw [htri]
      simp [tri3, Matrix.trace_fin_three]
      linear_combination (κ ^ 2 * (X0 + cycY x + cycZ x)) * h1 - (2 * κ ^ 2) * h2
    · exact t2
    · rw [eff_of_lt _ (by omega)]
      simp only [TridiagonalDecomp.intoDiagonals, Arr1.map, real_abs]
      rw [o1, mul_pow, hpp]
  have he1 : (NdFloat.epsilon : ℝ) ≤ 1 / 100 := by rw [real_epsilon]; norm_num
  obtain ⟨d1, d2, d3⟩ := hinv.delim hκ hx eps_pos.le he1 ds
  subst d1 d2 d3
  intro fuel
  rw [hsys fuel, CycState.loop (κ := κ) hκ eps_pos.le he1 fuel hr ⟨hsh, hre, rfl, rfl, hinv⟩, error_bind]

/-- C89: three is the smallest size for that: on symmetric matrices with at most two rows `eigh` and
`eigvalsh` return after at most one iteration. Exact real arithmetic. -/
theorem C89_eigh_returns_small {n : Nat} (hn : n ≤ 2) (a : Arr2 ℝ) (ha : HasShape a n n)
    (hs : (toMat n n a).IsSymm) :
    ∃ r, ∀ fuel, 1 ≤ fuel → eigh fuel a = .ok r ∧ eigvalsh fuel a = .ok r.1 := by
  suffices h : ∃ r, eigh 1 a = .ok r by
    obtain ⟨r, h⟩ := h
    exact ⟨r, fun fuel hf => eigh_mono hf h⟩
  by_cases hn0 : n = 0
  · exact eigh_of_symmetricEig ha (by
      rw [symmetricEig_empty _ _ _ _ (by rw [ha.1, ha.2]) (by rw [ha.1, hn0])]; trivial)
  obtain ⟨-, -, s3, -⟩ := scaleDown_real a ha (by omega) (by omega)
  obtain ⟨d, e, Q, hQ, hT, hen⟩ := symmetricEig_enter a (eps := NdFloat.epsilon) eps_pos.le ha
    (by omega) hs
  refine eigh_of_symmetricEig ha (hen _ ?_)
  intro st h1 h2 h3 _
  unfold eigLoop
  by_cases hne : st.end = st.start
  · rw [if_pos hne]; trivial
  · rw [if_neg hne]
    obtain ⟨st', e', ⟨h1', -⟩, mid, hb, -, ds⟩ := succeeds_iff.1 (h2.stepBranch eps_pos.le s3 h1 hne)
    rw [e', ok_bind]
    have hp := hb.progress h2 h1 hne ds
    have hle := h1.le
    have hle' := h1'.le
    have : st'.end = st'.start := by omega
    unfold eigLoop
    rw [if_pos this]
    trivial

end LinfaLinalg
