import Verif.Proofs.RoundedSvdGo
import Verif.Proofs.SvdVisits
import Verif.Props.RoundingEigh
import Verif.Props.Accuracy

/-! # C86, C87, C88: rounding errors of the singular value decomposition

The scalar type is `Rnd R`, the standard model of floating-point arithmetic. Without factors the singular values are
backward stable for every matrix. When a factor is requested they are not: the code multiplies them by norms that
cancel in exact arithmetic only. The factors stay near matrices with orthonormal columns. -/

namespace LinfaLinalg

open Matrix

variable {R : StdModel}

/-- What is assumed about the arithmetic: it is accurate enough for `m × n` matrices. -/
def SvdArith (R : StdModel) (m n : Nat) : Prop :=
  ((5 * max m n + 31 : Nat) : ℝ) * R.u < 1 ∧ 10 * R.w < 1 ∧ 0 ≤ R.eps

theorem svd_rnd {m n : Nat} (fuel : Nat) (a : Arr2 (Rnd R)) (ha : HasShape a m n) (hm : m ≠ 0) (hn : n ≠ 0)
    (hR : SvdArith R m n) (cu cv : Bool) :
    wp (svd fuel a cu cv) (fun r => r.2.1.len = min m n ∧ (∀ U ∈ r.1, HasShape U m (min m n)) ∧
      (∀ V ∈ r.2.2, HasShape V (min m n) n) ∧ r.1.isSome = cu ∧ r.2.2.isSome = cv ∧
      (∀ k, k < min m n → 0 ≤ (r.2.1.get k).v) ∧
      SvdFloatResult (2 ≤ min m n → cu = false ∧ cv = false) m n 0 fuel a r) (fun f => f = .fuel) :=
  svdGo_rnd fuel a ha hm hn hR.1 hR.2.1 hR.2.2 (epsOk_five hR.2.2) (by simp) fun h h2 => Or.inl (h h2)

/-- **C86**: in floating point, whatever the matrix and the flags, `svd` returns nonnegative values and factors of the
right shapes or keeps iterating: it neither panics nor reports an error. -/
theorem C86_no_failure {m n : Nat} (fuel : Nat) (a : Arr2 (Rnd R)) (ha : HasShape a m n) (hm : m ≠ 0) (hn : n ≠ 0)
    (hR : SvdArith R m n) (cu cv : Bool) :
    (∃ u s vt, svd fuel a cu cv = .ok (u, s, vt) ∧ s.len = min m n ∧ (∀ k, k < min m n → 0 ≤ (s.get k).v) ∧
      (∀ U ∈ u, HasShape U m (min m n)) ∧ (∀ V ∈ vt, HasShape V (min m n) n) ∧ u.isSome = cu ∧ vt.isSome = cv) ∨
    svd fuel a cu cv = .error .fuel := by
  have h := svd_rnd fuel a ha hm hn hR cu cv
  cases hx : svd fuel a cu cv with
  | error e => rw [hx] at h; exact Or.inr (congrArg _ h)
  | ok r =>
    rw [hx] at h
    exact Or.inl ⟨r.1, r.2.1, r.2.2, rfl, h.1, h.2.2.2.2.2.1, h.2.1, h.2.2.1, h.2.2.2.1, h.2.2.2.2.1⟩

/-- **C86**: the singular values that `svd` returns without factors are exactly those of a matrix within
`svdErr · ‖A‖_F` of `A`. -/
theorem C86_backward {m n : Nat} (fuel : Nat) (a : Arr2 (Rnd R)) (ha : HasShape a m n) (hm : m ≠ 0) (hn : n ≠ 0)
    (hR : SvdArith R m n) (u : Option (Arr2 (Rnd R))) (s : Arr1 (Rnd R)) (vt : Option (Arr2 (Rnd R)))
    (h : svd fuel a false false = .ok (u, s, vt)) :
    s.len = min m n ∧ (∀ k, k < min m n → 0 ≤ (s.get k).v) ∧
    ∃ (P : Matrix (Fin m) (Fin (min m n)) ℝ) (Q : Matrix (Fin (min m n)) (Fin n) ℝ) (Δ : Matrix (Fin m) (Fin n) ℝ),
      Pᵀ * P = 1 ∧ Q * Qᵀ = 1 ∧
      toMat m n (Rnd.vals a) + Δ = P * diagonal (fun i : Fin (min m n) => (s.get i).v) * Q ∧
      frob Δ ≤ svdErr R m n fuel * frob (toMat m n (Rnd.vals a)) := by
  have hw := svd_rnd fuel a ha hm hn hR false false
  rw [h] at hw
  obtain ⟨h1, -, -, -, -, h2, P, Q, hP, hQ, hd, -⟩ := hw
  refine ⟨h1, h2, P, Q, P * diagonal (fun i : Fin (min m n) => (s.get i).v) * Q - toMat m n (Rnd.vals a), hP, hQ,
    by abel, ?_⟩
  rw [← frob_neg, neg_sub]
  exact hd fun _ => ⟨rfl, rfl⟩

/-- Sorting the values of a decomposition of a nearby matrix. -/
theorem sortSvd_values {m n : Nat} {A : Matrix (Fin m) (Fin n) ℝ} {ε : ℝ} (u : Option (Arr2 (Rnd R))) (s : Arr1 (Rnd R))
    (vt : Option (Arr2 (Rnd R))) (hs : s.len = min m n) (hs0 : ∀ k, k < min m n → 0 ≤ (s.get k).v)
    (hu : ∀ U ∈ u, HasShape U m (min m n)) (hv : ∀ V ∈ vt, HasShape V (min m n) n)
    {P : Matrix (Fin m) (Fin (min m n)) ℝ} {Q : Matrix (Fin (min m n)) (Fin n) ℝ} (hP : Pᵀ * P = 1) (hQ : Q * Qᵀ = 1)
    (hd : frob (A - P * diagonal (fun i : Fin (min m n) => (s.get i).v) * Q) ≤ ε) (order : Order) :
    ∃ u' s' vt', sortSvd u s vt order = .ok (u', s', vt') ∧ s'.len = min m n ∧ ∀ j < min m n,
      |(s'.get j).v - nthSingularValue order A j| ≤ ε := by
  obtain ⟨u', s', vt', τ, g1, g2, g3, g4, -⟩ := C40_sort_svd u s vt
    (fun b hb => by rw [(hu b hb).2, hs]) (fun b hb => by rw [(hv b hb).1, hs]) (NaNFree.rnd s) order
  refine ⟨u', s', vt', g1, by rw [g3, hs], fun j hj => ?_⟩
  have hord : Ordered order fun i : Fin (min m n) => (s.get ((finCongr hs).permCongr τ i)).v := by
    have := g2.vals
    cases order <;> exact fun i j hij => this ((finCongr hs).symm i) ((finCongr hs).symm j) hij
  have key := sv_accuracy hP hQ (fun i : Fin (min m n) => (s.get i).v) (fun i => hs0 i i.2) hd order
    ((finCongr hs).permCongr τ) hord ⟨j, hj⟩
  have := g4 ⟨j, by rw [hs]; exact hj⟩
  simp only at this
  rw [this]
  exact key

/-- **C86**: the values of `svd` without factors, sorted by `sort_svd`, are one by one within `svdErr · ‖A‖_F` of the
exact singular values of `A` in the same order, with multiplicity. -/
theorem C86_singular_values {m n : Nat} (fuel : Nat) (a : Arr2 (Rnd R)) (ha : HasShape a m n) (hm : m ≠ 0) (hn : n ≠ 0)
    (hR : SvdArith R m n) (u : Option (Arr2 (Rnd R))) (s : Arr1 (Rnd R)) (vt : Option (Arr2 (Rnd R)))
    (h : svd fuel a false false = .ok (u, s, vt)) (order : Order) :
    ∃ u' s' vt', sortSvd u s vt order = .ok (u', s', vt') ∧ s'.len = min m n ∧ ∀ j < min m n,
      |(s'.get j).v - nthSingularValue order (toMat m n (Rnd.vals a)) j| ≤
        svdErr R m n fuel * frob (toMat m n (Rnd.vals a)) := by
  have hw := svd_rnd fuel a ha hm hn hR false false
  rw [h] at hw
  obtain ⟨h4, hu, hv, -, -, h5, P, Q, hP, hQ, hd, -⟩ := hw
  exact sortSvd_values u s vt h4 h5 hu hv hP hQ (hd fun _ => ⟨rfl, rfl⟩) order

/-- Double precision meets the assumptions for all matrices with at most `10⁹` rows and columns. -/
theorem svdArith_double {m n : Nat} (hm : m ≤ 10 ^ 9) (hn : n ≤ 10 ^ 9) : SvdArith .double m n := by
  refine ⟨?_, by norm_num [StdModel.double], by norm_num [StdModel.double]⟩
  have h1 : 5 * max m n + 31 ≤ 5000000031 := by omega
  have : ((5 * max m n + 31 : Nat) : ℝ) ≤ (5000000031 : ℝ) := by exact_mod_cast h1
  refine lt_of_le_of_lt (mul_le_mul_of_nonneg_right this StdModel.double.u_nonneg) ?_
  norm_num [StdModel.double]

theorem svdFac_le (R : StdModel) (N : Nat) (hc : 0 ≤ (1 + svdRotErr R) * (1 + svdDeflErr R) - 1)
    (h : N * ((1 + svdRotErr R) * (1 + svdDeflErr R) - 1) < 1) :
    svdFac R N ≤ 1 + N * ((1 + svdRotErr R) * (1 + svdDeflErr R) - 1) /
      (1 - N * ((1 + svdRotErr R) * (1 + svdDeflErr R) - 1)) := by
  have h1 := one_add_pow_sub_one_le hc N h
  rw [add_sub_cancel] at h1
  exact sub_le_iff_le_add'.1 h1

/-- The assumptions hold in double precision, the bound is small (a `40 × 20` matrix, 60 iterations), and there are runs
that return. -/
example : SvdArith .double 40 20 ∧ svdErr .double 40 20 60 ≤ 1e-8 ∧
    ∃ r, svd 1 exSvd false false = .ok r := by
  refine ⟨svdArith_double (by norm_num) (by norm_num), ?_, svdGo_small exSvd false false _ 0 (by simp [exSvd])
    (by simp [exSvd]) (by simp [exSvd])⟩
  have h1 := svdFac_le .double (svdOps 20 60) (by norm_num [StdModel.double, svdRotErr, svdDeflErr, gam, StdModel.uw])
    (by norm_num [StdModel.double, svdRotErr, svdDeflErr, gam, StdModel.uw, svdOps])
  have h2 : 0 ≤ (1 + StdModel.double.u) ^ 2 * (1 + reflErrs .double (max 40 20) (2 * min 40 20 - 1)) := by
    norm_num [StdModel.double, reflErrs, reflErr, gam]
  have h3 := mul_le_mul_of_nonneg_left h1 h2
  unfold svdErr
  refine (sub_le_sub_right h3 1).trans ?_
  norm_num [StdModel.double, svdRotErr, svdDeflErr, gam, StdModel.uw, svdOps, reflErrs, reflErr]

/-- Singular values are at most the Frobenius norm. -/
theorem nthSingularValue_le_frob {m n : Nat} (A : Matrix (Fin m) (Fin n) ℝ) {U : Matrix (Fin m) (Fin (min m n)) ℝ}
    {V : Matrix (Fin (min m n)) (Fin n) ℝ} (hU : Uᵀ * U = 1) (hV : V * Vᵀ = 1) (order : Order) (j : Fin (min m n)) :
    |nthSingularValue order A j| ≤ frob A := by
  have h := sv_accuracy (A := A) (ε := frob A) hU hV (fun _ => 0) (fun _ => le_rfl) (by simp) order 1
    (by cases order <;> exact fun _ _ _ => le_rfl) j
  simpa using h

/-- **C87** fails: it would say that the singular values are as accurate when factors are requested. In double
precision, on `[[3/4, 1], [0, 25 · 2⁻⁵⁴]]`, whose singular values are at most `1.25 + 10⁻⁹`, `svd` with both factors
returns a value of at least `1.26`. Without factors the values are accurate to `10⁻¹²` on the same matrix. -/
theorem C87_false : HasShape exSvd 2 2 ∧ SvdArith .double 2 2 ∧
    (∀ j < 2, |nthSingularValue .largest (toMat 2 2 (Rnd.vals exSvd)) j| ≤ 1.25 + 1e-9) ∧
    (∀ fuel, ∃ u s vt, svd (fuel + 1) exSvd true true = .ok (u, s, vt) ∧ s.len = 2 ∧ 1.26 ≤ (s.get 1).v) ∧
    ∃ u s vt u' s' vt', svd 1 exSvd false false = .ok (u, s, vt) ∧ sortSvd u s vt .largest = .ok (u', s', vt') ∧
      ∀ j < 2, |(s'.get j).v - nthSingularValue .largest (toMat 2 2 (Rnd.vals exSvd)) j| ≤ 1e-12 := by
  have hf : frob (toMat 2 2 (Rnd.vals exSvd)) ≤ 1.25 + 1e-9 := by
    apply frob_le_of_sq (by norm_num)
    simp [Fin.sum_univ_two, toMat_apply, Rnd.vals, exSvd, ofRows]
    norm_num
  have hsh : HasShape exSvd 2 2 := ⟨rfl, rfl⟩
  have hA : SvdArith .double 2 2 := svdArith_double (by norm_num) (by norm_num)
  refine ⟨hsh, hA, fun j hj => ?_, fun fuel => ?_, ?_⟩
  · exact (nthSingularValue_le_frob (m := 2) (n := 2) (toMat 2 2 (Rnd.vals exSvd)) (U := (1 : Matrix (Fin 2) (Fin 2) ℝ))
      (V := (1 : Matrix (Fin 2) (Fin 2) ℝ)) (by simp) (by simp) .largest ⟨j, hj⟩).trans hf
  · obtain ⟨u, s, vt, h1, h2, h3⟩ := exSvd_run fuel
    exact ⟨u, s, vt, h1, h2, le_trans (by norm_num) h3⟩
  · obtain ⟨⟨u, s, vt⟩, h⟩ := svdGo_small exSvd false false (NdFloat.epsilon * NdFloat.ofRat 5) 0 (by simp [exSvd])
      (by simp [exSvd]) (by simp [exSvd])
    obtain ⟨u', s', vt', h1, -, h2⟩ := C86_singular_values (m := 2) (n := 2) 1 exSvd hsh two_ne_zero two_ne_zero hA u s vt
      h .largest
    refine ⟨u, s, vt, u', s', vt', h, h1, fun j hj => (h2 j hj).trans ?_⟩
    have h0 : 0 ≤ svdErr .double 2 2 1 := by
      norm_num [StdModel.double, svdRotErr, svdDeflErr, gam, StdModel.uw, svdOps, reflErrs, reflErr, svdErr, svdFac]
    refine (mul_le_mul_of_nonneg_left hf h0).trans ?_
    norm_num [StdModel.double, svdRotErr, svdDeflErr, gam, StdModel.uw, svdOps, reflErrs, reflErr, svdErr, svdFac]

/-- **C87**, in part: for vectors, `min(m, n) = 1`, requesting factors does not change the accuracy of the value. Missing:
larger matrices, for which the claim fails (`C87_false`). -/
theorem C87_vector_partial {m n : Nat} (fuel : Nat) (a : Arr2 (Rnd R)) (ha : HasShape a m n) (hmn : min m n = 1)
    (hR : SvdArith R m n) (cu cv : Bool) (u : Option (Arr2 (Rnd R))) (s : Arr1 (Rnd R)) (vt : Option (Arr2 (Rnd R)))
    (h : svd fuel a cu cv = .ok (u, s, vt)) :
    ∃ (P : Matrix (Fin m) (Fin (min m n)) ℝ) (Q : Matrix (Fin (min m n)) (Fin n) ℝ),
      Pᵀ * P = 1 ∧ Q * Qᵀ = 1 ∧
      frob (toMat m n (Rnd.vals a) - P * diagonal (fun i : Fin (min m n) => (s.get i).v) * Q) ≤
        svdErr R m n fuel * frob (toMat m n (Rnd.vals a)) := by
  have hw := svd_rnd fuel a ha (by omega) (by omega) hR cu cv
  rw [h] at hw
  obtain ⟨-, -, -, -, -, -, P, Q, hP, hQ, hd, -⟩ := hw
  exact ⟨P, Q, hP, hQ, hd fun h2 => by omega⟩

theorem svd_rnd_good {m n : Nat} (fuel : Nat) (a : Arr2 (Rnd R)) (ha : HasShape a m n) (hm : m ≠ 0) (hn : n ≠ 0)
    (hR : SvdArith R m n) (cu cv : Bool) {K : Nat} (hK : 1 ≤ K) (hK' : 104 * ((K : ℝ) ^ 2 * gam R.uw 10) ≤ 1)
    (hgood : ∀ st, SvdVisits a cu cv (NdFloat.epsilon * NdFloat.ofRat 5) st → SvdBlockGood K st) :
    wp (svd fuel a cu cv) (fun r => r.2.1.len = min m n ∧ (∀ U ∈ r.1, HasShape U m (min m n)) ∧
      (∀ V ∈ r.2.2, HasShape V (min m n) n) ∧ r.1.isSome = cu ∧ r.2.2.isSome = cv ∧
      (∀ k, k < min m n → 0 ≤ (r.2.1.get k).v) ∧ SvdFloatResult True m n K fuel a r) (fun f => f = .fuel) :=
  svdGo_rnd fuel a ha hm hn hR.1 hR.2.1 hR.2.2 (epsOk_five hR.2.2) hK' fun _ _ => Or.inr ⟨hK, hgood⟩

/-- **C87**, in part: on a run on which every `2 × 2` block handed to `compute_2x2_uptrig_svd` is `UptrigGood K`, what
`svd` returns with factors is, up to `svdErrGood · ‖A‖_F`, a singular value decomposition of `A`: the values are those of a
matrix that close to `A`, the rows of `Vᵗ` are within `svdVecErrGood` of its right singular vectors, and every column of
`U` that was not overwritten with zeros is within `svdVecErrGood` of its left singular vector. Missing: runs with other
blocks, on which the claim fails (`C87_false`). -/
theorem C87_decomposition_partial {m n : Nat} (fuel : Nat) (a : Arr2 (Rnd R)) (ha : HasShape a m n) (hm : m ≠ 0)
    (hn : n ≠ 0) (hR : SvdArith R m n) (cu cv : Bool) {K : Nat} (hK : 1 ≤ K)
    (hK' : 104 * ((K : ℝ) ^ 2 * gam R.uw 10) ≤ 1)
    (hgood : ∀ st, SvdVisits a cu cv (NdFloat.epsilon * NdFloat.ofRat 5) st → SvdBlockGood K st)
    (u : Option (Arr2 (Rnd R))) (s : Arr1 (Rnd R)) (vt : Option (Arr2 (Rnd R))) (h : svd fuel a cu cv = .ok (u, s, vt)) :
    (∀ k, k < min m n → 0 ≤ (s.get k).v) ∧
    ∃ (P : Matrix (Fin m) (Fin (min m n)) ℝ) (Q : Matrix (Fin (min m n)) (Fin n) ℝ), Pᵀ * P = 1 ∧ Q * Qᵀ = 1 ∧
      frob (toMat m n (Rnd.vals a) - P * diagonal (fun i : Fin (min m n) => (s.get i).v) * Q) ≤
        svdErrGood R m n K fuel * frob (toMat m n (Rnd.vals a)) ∧
      (∀ U, u = some U → ∀ j : Fin (min m n), (∀ i, (U.get i j).v = 0) ∨
        colNorm (toMat m (min m n) (Rnd.vals U) - P) j ≤ svdVecErrGood R m n K fuel) ∧
      ∀ V, vt = some V → frob (toMat (min m n) n (Rnd.vals V) - Q) ≤ svdVecErrGood R m n K fuel := by
  have hw := svd_rnd_good fuel a ha hm hn hR cu cv hK hK' hgood
  rw [h] at hw
  obtain ⟨-, -, -, -, -, h5, P, Q, hP, hQ, hd, hU, hV⟩ := hw
  exact ⟨h5, P, Q, hP, hQ, hd trivial, hU, hV⟩

/-- **C87**, in part: on such a run the values, sorted by `sort_svd`, are one by one within `svdErrGood · ‖A‖_F` of the
exact singular values, whichever factors are requested. Missing: as for `C87_decomposition_partial`. -/
theorem C87_singular_values_partial {m n : Nat} (fuel : Nat) (a : Arr2 (Rnd R)) (ha : HasShape a m n) (hm : m ≠ 0)
    (hn : n ≠ 0) (hR : SvdArith R m n) (cu cv : Bool) {K : Nat} (hK : 1 ≤ K)
    (hK' : 104 * ((K : ℝ) ^ 2 * gam R.uw 10) ≤ 1)
    (hgood : ∀ st, SvdVisits a cu cv (NdFloat.epsilon * NdFloat.ofRat 5) st → SvdBlockGood K st)
    (u : Option (Arr2 (Rnd R))) (s : Arr1 (Rnd R)) (vt : Option (Arr2 (Rnd R))) (h : svd fuel a cu cv = .ok (u, s, vt))
    (order : Order) :
    ∃ u' s' vt', sortSvd u s vt order = .ok (u', s', vt') ∧ s'.len = min m n ∧ ∀ j < min m n,
      |(s'.get j).v - nthSingularValue order (toMat m n (Rnd.vals a)) j| ≤
        svdErrGood R m n K fuel * frob (toMat m n (Rnd.vals a)) := by
  have hw := svd_rnd_good fuel a ha hm hn hR cu cv hK hK' hgood
  rw [h] at hw
  obtain ⟨h4, hu, hv, -, -, h5, P, Q, hP, hQ, hd, -⟩ := hw
  exact sortSvd_values u s vt h4 h5 hu hv hP hQ (hd trivial) order

/-- The assumptions hold on a run with both factors that decomposes a block, `[[3/4, 1], [0, 1/2]]` in double precision,
and the bounds are small there and for a `40 × 20` matrix after 60 iterations with `K = 100`. -/
example : HasShape exSvdGood 2 2 ∧ SvdArith .double 2 2 ∧ 104 * (((5 : Nat) : ℝ) ^ 2 * gam StdModel.double.uw 10) ≤ 1 ∧
    (∀ st, SvdVisits exSvdGood true true (NdFloat.epsilon * NdFloat.ofRat 5) st → SvdBlockGood 5 st) ∧
    (∃ r, svd 1 exSvdGood true true = .ok r) ∧ svdErrGood .double 2 2 5 1 ≤ 1e-9 ∧
    104 * (((100 : Nat) : ℝ) ^ 2 * gam StdModel.double.uw 10) ≤ 1 ∧ svdErrGood .double 40 20 100 60 ≤ 1e-4 := by
  refine ⟨⟨rfl, rfl⟩, svdArith_double (by norm_num) (by norm_num), by norm_num [StdModel.double, gam, StdModel.uw],
    exSvdGood_good true true, svdGo_small exSvdGood true true _ 0 (by simp [exSvdGood]) (by simp [exSvdGood])
    (by simp [exSvdGood]), ?_, by norm_num [StdModel.double, gam, StdModel.uw], ?_⟩
  · have h1 := svdFac_le .double (svdOpsGood 2 5 1) (by norm_num [StdModel.double, svdRotErr, svdDeflErr, gam, StdModel.uw])
      (by norm_num [StdModel.double, svdRotErr, svdDeflErr, gam, StdModel.uw, svdOpsGood])
    have h2 : 0 ≤ (1 + StdModel.double.u) ^ 2 * (1 + reflErrs .double (max 2 2) (2 * min 2 2 - 1)) := by
      norm_num [StdModel.double, reflErrs, reflErr, gam]
    have h3 := mul_le_mul_of_nonneg_left h1 h2
    unfold svdErrGood
    refine (sub_le_sub_right h3 1).trans ?_
    norm_num [StdModel.double, svdRotErr, svdDeflErr, gam, StdModel.uw, svdOpsGood, reflErrs, reflErr]
  · have h1 := svdFac_le .double (svdOpsGood 20 100 60)
      (by norm_num [StdModel.double, svdRotErr, svdDeflErr, gam, StdModel.uw])
      (by norm_num [StdModel.double, svdRotErr, svdDeflErr, gam, StdModel.uw, svdOpsGood])
    have h2 : 0 ≤ (1 + StdModel.double.u) ^ 2 * (1 + reflErrs .double (max 40 20) (2 * min 40 20 - 1)) := by
      norm_num [StdModel.double, reflErrs, reflErr, gam]
    have h3 := mul_le_mul_of_nonneg_left h1 h2
    unfold svdErrGood
    refine (sub_le_sub_right h3 1).trans ?_
    norm_num [StdModel.double, svdRotErr, svdDeflErr, gam, StdModel.uw, svdOpsGood, reflErrs, reflErr]

/-- **C88**: the rows of `Vᵗ` are orthonormal up to `δ (2 + δ)`, `δ = svdVecErr`, whatever the matrix. -/
theorem C88_vt_orthonormal {m n : Nat} (fuel : Nat) (a : Arr2 (Rnd R)) (ha : HasShape a m n) (hm : m ≠ 0) (hn : n ≠ 0)
    (hR : SvdArith R m n) (cu cv : Bool) (u : Option (Arr2 (Rnd R))) (s : Arr1 (Rnd R)) (V : Arr2 (Rnd R))
    (h : svd fuel a cu cv = .ok (u, s, some V)) :
    HasShape V (min m n) n ∧ ∀ i j : Fin (min m n),
      |(toMat (min m n) n (Rnd.vals V) * (toMat (min m n) n (Rnd.vals V))ᵀ -
        (1 : Matrix (Fin (min m n)) (Fin (min m n)) ℝ)) i j| ≤ svdVecErr R m n fuel * (2 + svdVecErr R m n fuel) := by
  have hw := svd_rnd fuel a ha hm hn hR cu cv
  rw [h] at hw
  obtain ⟨-, -, h1, -, -, -, P, Q, hP, hQ, -, -, hd⟩ := hw
  have h2 := hd V rfl
  have := near_orthonormal (P := (toMat (min m n) n (Rnd.vals V))ᵀ) (Q := Qᵀ) ((frob_nonneg _).trans h2)
    (by rw [Matrix.transpose_transpose]; exact hQ) (fun j => (colNorm_le_frob _ j).trans (by
      rw [← Matrix.transpose_sub, frob_transpose]; exact h2))
  rw [Matrix.transpose_transpose] at this
  exact ⟨h1 V rfl, this⟩

/-- **C88**: the columns of `U` are orthonormal up to `δ (2 + δ)`, `δ = svdVecErr`, except those that `svd` overwrites with
zeros because the value computed with them was negative. -/
theorem C88_u_orthonormal {m n : Nat} (fuel : Nat) (a : Arr2 (Rnd R)) (ha : HasShape a m n) (hm : m ≠ 0) (hn : n ≠ 0)
    (hR : SvdArith R m n) (cu cv : Bool) (U : Arr2 (Rnd R)) (s : Arr1 (Rnd R)) (vt : Option (Arr2 (Rnd R)))
    (h : svd fuel a cu cv = .ok (some U, s, vt)) :
    HasShape U m (min m n) ∧ ∀ i j : Fin (min m n),
      (∀ r, (U.get r i).v = 0) ∨ (∀ r, (U.get r j).v = 0) ∨
      |((toMat m (min m n) (Rnd.vals U))ᵀ * toMat m (min m n) (Rnd.vals U) -
        (1 : Matrix (Fin (min m n)) (Fin (min m n)) ℝ)) i j| ≤ svdVecErr R m n fuel * (2 + svdVecErr R m n fuel) := by
  have hw := svd_rnd fuel a ha hm hn hR cu cv
  rw [h] at hw
  obtain ⟨-, h1, -, -, -, -, P, Q, hP, hQ, -, hd, -⟩ := hw
  refine ⟨h1 U rfl, fun i j => ?_⟩
  rcases hd U rfl i with h2 | h2
  · exact Or.inl h2
  rcases hd U rfl j with h3 | h3
  · exact Or.inr (Or.inl h3)
  refine Or.inr (Or.inr ?_)
  -- replace the zero columns by those of `P`
  let W : Matrix (Fin m) (Fin (min m n)) ℝ := Matrix.of fun r k =>
    if k = i ∨ k = j then toMat m (min m n) (Rnd.vals U) r k else P r k
  have h0 : 0 ≤ svdVecErr R m n fuel := (colNorm_nonneg _ _).trans h2
  have hW : ∀ k, colNorm (W - P) k ≤ svdVecErr R m n fuel := by
    intro k
    by_cases hk : k = i ∨ k = j
    · have : colNorm (W - P) k = colNorm (toMat m (min m n) (Rnd.vals U) - P) k := by
        simp only [colNorm, Matrix.sub_apply, W, Matrix.of_apply, if_pos hk]
      rw [this]
      rcases hk with rfl | rfl
      · exact h2
      · exact h3
    · have : colNorm (W - P) k = 0 := by
        simp [colNorm, Matrix.sub_apply, W, Matrix.of_apply, if_neg hk]
      rw [this]; exact h0
  have := near_orthonormal h0 hP hW i j
  have he : (Wᵀ * W) i j = ((toMat m (min m n) (Rnd.vals U))ᵀ * toMat m (min m n) (Rnd.vals U)) i j := by
    simp [Matrix.mul_apply, W]
  rw [Matrix.sub_apply, he] at this
  exact this

/-- The factors of a run in double precision, and the size of the bound for a `40 × 20` matrix after 60 iterations. -/
example : SvdArith .double 2 2 ∧ (∃ U s V, svd 1 exSvd true true = .ok (some U, s, some V)) ∧
    svdVecErr .double 40 20 60 ≤ 1e-7 := by
  refine ⟨svdArith_double (by norm_num) (by norm_num), ?_, ?_⟩
  · obtain ⟨r, h⟩ := svdGo_small exSvd true true (NdFloat.epsilon * NdFloat.ofRat 5) 0 (by simp [exSvd]) (by simp [exSvd])
      (by simp [exSvd])
    have hw := svd_rnd 1 exSvd (m := 2) (n := 2) ⟨rfl, rfl⟩ two_ne_zero two_ne_zero
      (svdArith_double (by norm_num) (by norm_num)) true true
    unfold svd at hw ⊢
    rw [h] at hw ⊢
    obtain ⟨U, hU⟩ := Option.isSome_iff_exists.1 hw.2.2.2.1
    obtain ⟨V, hV⟩ := Option.isSome_iff_exists.1 hw.2.2.2.2.1
    exact ⟨U, r.2.1, V, by rw [← hU, ← hV]⟩
  · have h1 := svdFac_le .double (svdOps 20 60) (by norm_num [StdModel.double, svdRotErr, svdDeflErr, gam, StdModel.uw])
      (by norm_num [StdModel.double, svdRotErr, svdDeflErr, gam, StdModel.uw, svdOps])
    have h2 : 0 ≤ 1 + reflErrs .double (max 40 20) (min 40 20) := by
      norm_num [StdModel.double, reflErrs, reflErr, gam]
    have h3 := mul_le_mul_of_nonneg_left h1 h2
    have h4 : Real.sqrt (min 40 20 : Nat) ≤ 5 := by
      rw [Real.sqrt_le_left (by norm_num)]; norm_num
    unfold svdVecErr
    calc _ ≤ (1e-8 : ℝ) * 5 := by
          refine mul_le_mul ((sub_le_sub_right h3 1).trans ?_) h4 (Real.sqrt_nonneg _) (by norm_num)
          norm_num [StdModel.double, svdRotErr, svdDeflErr, gam, StdModel.uw, svdOps, reflErrs, reflErr]
      _ ≤ 1e-7 := by norm_num

end LinfaLinalg
