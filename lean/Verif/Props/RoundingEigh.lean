import Verif.Proofs.RoundedEighLoop
import Verif.Proofs.EighTerm
import Verif.Proofs.EighFloat
import Verif.Props.RoundingTridiag
import Verif.Props.Sort

/-! # C84, C85: rounding errors of the symmetric eigendecomposition

The scalar type is `Rnd R`, the standard model of floating-point arithmetic. The eigenvalues are backward stable for
every symmetric matrix, and the matrix of eigenvectors stays orthogonal. Its columns need not be eigenvectors. -/

namespace LinfaLinalg

open Matrix

variable {R : StdModel}

instance : LawfulLe (Rnd R) where
  trans a b c h1 h2 := by simp only [Rnd.le_v, decide_eq_true_eq] at *; exact le_trans h1 h2
  total a b _ _ := by simp only [Rnd.le_v, decide_eq_true_eq] at *; exact le_total a.v b.v

theorem NaNFree.rnd (v : Arr1 (Rnd R)) : NaNFree v := fun i _ => by simp

theorem StableSortPerm.vals {order : Order} {v : Arr1 (Rnd R)} {σ : Equiv.Perm (Fin v.len)}
    (h : StableSortPerm order v.len v.get σ) : Ordered order fun i : Fin v.len => (v.get (σ i)).v := by
  have h1 := h.sorted
  unfold Ordered
  cases order with
  | smallest =>
    intro i j hij
    rcases eq_or_lt_of_le hij with rfl | h2
    · exact le_rfl
    · have := h1 i j h2; simpa [InOrder] using this
  | largest =>
    intro i j hij
    rcases eq_or_lt_of_le hij with rfl | h2
    · exact le_rfl
    · have := h1 i j h2; simpa [InOrder] using this

/-- The assumptions on the arithmetic: the unit roundoff `u` is small against the size, the error of `hypot` is
below `1/10`, and the machine epsilon is nonnegative. -/
def EigArith (R : StdModel) (n : Nat) : Prop :=
  ((10 * n + 56 : Nat) : ℝ) * R.u < 1 ∧ 10 * R.w < 1 ∧ triErr R n ≤ 1 ∧ 0 ≤ R.eps

theorem colNorm_le_frob {m n : Nat} (A : Matrix (Fin m) (Fin n) ℝ) (j : Fin n) : colNorm A j ≤ frob A := by
  refine abs_le_of_sq_le_sq' ?_ (frob_nonneg A) |>.2
  rw [frob_sq_colNorm]
  exact Finset.single_le_sum (f := fun j => colNorm A j ^ 2) (fun _ _ => sq_nonneg _) (Finset.mem_univ j)

theorem eigh_rnd {n : Nat} (fuel : Nat) (a : Arr2 (Rnd R)) (ha : HasShape a n n)
    (hs : (toMat n n (Rnd.vals a)).IsSymm) (hR : EigArith R n) :
    wp (eigh fuel a) (fun r => r.1.len = n ∧ HasShape r.2 n n ∧
      NearOrth n (toMat n n (Rnd.vals r.2)) (1 + eigOrthErr R n fuel) ∧
      Simil n (toMat n n (Rnd.vals a)) (diagonal fun i : Fin n => (r.1.get i).v) (1 + eigErr R n fuel))
      (fun e => e = .fuel) := by
  obtain ⟨hu, hw, hc, heps⟩ := hR
  unfold eigh eighInto
  rcases Nat.eq_zero_or_pos n with rfl | hn
  · rw [symmetricEig_empty fuel a true NdFloat.epsilon (by rw [ha.1, ha.2]) ha.1]
    refine ⟨rfl, ⟨rfl, rfl⟩, ⟨1, ?_, ?_⟩, 1, ?_, ?_⟩ <;> first | (ext i; exact i.elim0) | skip
    · rw [show toMat 0 0 (Rnd.vals (Arr2.zeros 0 0 : Arr2 (Rnd R))) - 1 = 0 by ext i; exact i.elim0]; simp
    · apply frob_le_of_sq <;> simp [frob]
  · rw [wp_bind]
    refine wp_conseq (symmetricEig_rnd fuel a true (eps := NdFloat.epsilon) rfl heps ha hn hs hu hw hc) ?_
    rintro ⟨vals, q⟩ ⟨h1, h2, h3, O, hO, P, hP, h4, h5⟩
    obtain ⟨Q, rfl⟩ := Option.isSome_iff_exists.1 h3
    exact ⟨h1, h2 Q rfl, ⟨O * P, orth_prod hO hP, h5 Q rfl⟩, P, hP, h4⟩

/-- **C84**: in floating point, whatever the symmetric matrix, `eigh` returns or keeps iterating: it neither panics nor
reports an error. -/
theorem C84_no_failure {n : Nat} (fuel : Nat) (a : Arr2 (Rnd R)) (ha : HasShape a n n)
    (hs : (toMat n n (Rnd.vals a)).IsSymm) (hR : EigArith R n) :
    (∃ vals q, eigh fuel a = .ok (vals, q) ∧ vals.len = n ∧ HasShape q n n) ∨ eigh fuel a = .error .fuel := by
  have h := eigh_rnd fuel a ha hs hR
  cases hx : eigh fuel a with
  | error e => rw [hx] at h; exact Or.inr (congrArg _ h)
  | ok r => rw [hx] at h; exact Or.inl ⟨r.1, r.2, rfl, h.1, h.2.1⟩

/-- **C84**: the eigenvalues that `eigh` returns are exactly those of a matrix within `eigErr · ‖A‖_F` of `A`. -/
theorem C84_backward {n : Nat} (fuel : Nat) (a : Arr2 (Rnd R)) (ha : HasShape a n n)
    (hs : (toMat n n (Rnd.vals a)).IsSymm) (hR : EigArith R n) (vals : Arr1 (Rnd R)) (q : Arr2 (Rnd R))
    (h : eigh fuel a = .ok (vals, q)) :
    vals.len = n ∧ ∃ P Δ : Matrix (Fin n) (Fin n) ℝ, Pᵀ * P = 1 ∧
      toMat n n (Rnd.vals a) + Δ = P * diagonal (fun i : Fin n => (vals.get i).v) * Pᵀ ∧
      frob Δ ≤ eigErr R n fuel * frob (toMat n n (Rnd.vals a)) := by
  have hw := eigh_rnd fuel a ha hs hR
  rw [h] at hw
  obtain ⟨h1, -, -, P, hP, hd⟩ := hw
  refine ⟨h1, P, P * diagonal (fun i : Fin n => (vals.get i).v) * Pᵀ - toMat n n (Rnd.vals a), hP, by abel, ?_⟩
  rw [← frob_neg, neg_sub]
  rwa [add_sub_cancel_left] at hd

/-- **C84**: the values of `eigh` and of `eigvalsh`, sorted by `sort_eig`, are one by one within `eigErr · ‖A‖_F` of
the exact eigenvalues of `A` in the same order, with multiplicity. -/
theorem C84_eigenvalues {n : Nat} (fuel : Nat) (a : Arr2 (Rnd R)) (ha : HasShape a n n)
    (hs : (toMat n n (Rnd.vals a)).IsSymm) (hR : EigArith R n) (vals : Arr1 (Rnd R))
    (h : eigvalsh fuel a = .ok vals ∨ ∃ q, eigh fuel a = .ok (vals, q)) (order : Order) :
    ∃ out, sortEigVals vals order = .ok out ∧ out.len = n ∧ ∀ j : Fin n,
      |(out.get j).v - nthEigenvalue order hs j| ≤ eigErr R n fuel * frob (toMat n n (Rnd.vals a)) := by
  obtain ⟨q, hq⟩ : ∃ q, eigh fuel a = .ok (vals, q) := by
    rcases h with h | h
    · exact (C27_eigvalsh_eq_eigh fuel a).1 vals |>.1 h
    · exact h
  have hw := eigh_rnd fuel a ha hs hR
  rw [hq] at hw
  obtain ⟨h1, -, -, P, hP, hd⟩ := hw
  rw [add_sub_cancel_left] at hd
  simp only at h1
  subst h1
  obtain ⟨out, τ, ho, hτ, hl, hg⟩ := C33_sort_eig_values vals (NaNFree.rnd vals) order
  refine ⟨out, ho, hl, fun j => ?_⟩
  rw [hg j]
  exact eig_accuracy hs hP (fun i => (vals.get i).v) hd order τ hτ.vals j

/-- **C84**: the columns of the eigenvector matrix are orthonormal up to `δ (2 + δ)`, `δ = √n · eigOrthErr`, whatever
the symmetric matrix. -/
theorem C84_orthonormal {n : Nat} (fuel : Nat) (a : Arr2 (Rnd R)) (ha : HasShape a n n)
    (hs : (toMat n n (Rnd.vals a)).IsSymm) (hR : EigArith R n) (vals : Arr1 (Rnd R)) (q : Arr2 (Rnd R))
    (h : eigh fuel a = .ok (vals, q)) : HasShape q n n ∧ ∀ i j : Fin n,
      |((toMat n n (Rnd.vals q))ᵀ * toMat n n (Rnd.vals q) - (1 : Matrix (Fin n) (Fin n) ℝ)) i j| ≤
        Real.sqrt n * eigOrthErr R n fuel * (2 + Real.sqrt n * eigOrthErr R n fuel) := by
  have hw := eigh_rnd fuel a ha hs hR
  rw [h] at hw
  obtain ⟨-, h1, ⟨P, hP, hd⟩, -⟩ := hw
  rw [add_sub_cancel_left, mul_comm] at hd
  exact ⟨h1, near_orthonormal ((frob_nonneg _).trans hd) hP fun j => (colNorm_le_frob _ j).trans hd⟩

/-- The error constants grow no faster than linearly while they are small. -/
theorem eigErr_le (R : StdModel) (n k : Nat) (hc : 0 ≤ (1 + rotErr R) * (1 + deflErr R) - 1)
    (h : (n * (k + 1) : Nat) * ((1 + rotErr R) * (1 + deflErr R) - 1) < 1) (ht : 0 ≤ triErr R n) :
    eigErr R n k ≤ (1 + R.u) ^ 2 * (1 + triErr R n) *
      (1 + (n * (k + 1) : Nat) * ((1 + rotErr R) * (1 + deflErr R) - 1) /
        (1 - (n * (k + 1) : Nat) * ((1 + rotErr R) * (1 + deflErr R) - 1))) - 1 := by
  have h1 := one_add_pow_sub_one_le hc (n * (k + 1)) h
  rw [add_sub_cancel] at h1
  have h2 : 0 ≤ (1 + R.u) ^ 2 * (1 + triErr R n) := by have := R.u_nonneg; positivity
  unfold eigErr
  have := mul_le_mul_of_nonneg_left (sub_le_iff_le_add'.1 h1) h2
  linarith

/-- Double precision meets the assumptions up to `n = 10000`. -/
theorem eigArith_double {n : Nat} (hn : n ≤ 10000) : EigArith .double n := by
  refine ⟨?_, by norm_num [StdModel.double], ?_, by norm_num [StdModel.double]⟩
  · have : ((10 * n + 56 : Nat) : ℝ) ≤ (100056 : ℝ) := by exact_mod_cast (by omega : 10 * n + 56 ≤ 100056)
    refine lt_of_le_of_lt (mul_le_mul_of_nonneg_right this StdModel.double.u_nonneg) ?_
    norm_num [StdModel.double]
  · have hg : gam StdModel.double.u (10 * n + 56) ≤ gam StdModel.double.u 100056 :=
      gam_mono StdModel.double.u_nonneg (by omega) (by norm_num [StdModel.double])
    have hn' : (n : ℝ) ≤ 10000 := by exact_mod_cast hn
    have hb : (5 * (n : ℝ) ^ 2 + 6 * n) ≤ 500060000 := by nlinarith [Nat.cast_nonneg (α := ℝ) n]
    have hb0 : 0 ≤ (5 * (n : ℝ) ^ 2 + 6 * n) := by positivity
    have hg' : gam StdModel.double.u 100056 ≤ 1 / 5000600000 := by norm_num [gam, StdModel.double]
    unfold triErr
    calc 10 * gam StdModel.double.u (10 * n + 56) * (5 * (n : ℝ) ^ 2 + 6 * n)
        ≤ 10 * (1 / 5000600000) * (5 * (n : ℝ) ^ 2 + 6 * n) :=
          mul_le_mul_of_nonneg_right (by linarith) hb0
      _ ≤ 10 * (1 / 5000600000) * 500060000 := mul_le_mul_of_nonneg_left hb (by norm_num)
      _ ≤ 1 := by norm_num

theorem exDbl_symm : (toMat 2 2 (Rnd.vals exDbl)).IsSymm := by
  ext i j
  fin_cases i <;> fin_cases j <;> simp [toMat_apply, Rnd.vals, exDbl, ofRows]

/-- The assumptions hold in double precision, the bound is small (`n = 100`, 3000 iterations), and there are runs
that return. -/
example : (∀ n ≤ 10000, EigArith .double n) ∧ eigErr .double 100 3000 ≤ 1e-7 ∧
    ∃ vals q, eigh 1 exDbl = .ok (vals, q) := by
  refine ⟨fun n hn => eigArith_double hn, ?_, ?_⟩
  · refine (eigErr_le .double 100 3000 ?_ ?_ ?_).trans ?_ <;>
      norm_num [StdModel.double, rotErr, deflErr, gam, triErr, StdModel.uw]
  · obtain ⟨vals, q, h, -⟩ := exDbl_run 0
    exact ⟨vals, q, h⟩

/-- **C85** fails: it would say that the vectors `eigh` returns are eigenvectors up to rounding. In double precision,
on the symmetric matrix `[[-1, 3u], [3u, 5/16 + u]]`, `u = 2⁻⁵³`, `eigh` returns after one iteration, and the first
vector returned is not near an eigenvector: whatever the eigenvalue `μ`, its residual is at least `‖A‖_F / 6`. -/
theorem C85_false : HasShape exDbl 2 2 ∧ (toMat 2 2 (Rnd.vals exDbl)).IsSymm ∧ ∀ fuel, ∃ vals q,
    eigh (fuel + 1) exDbl = .ok (vals, q) ∧ ∀ μ : ℝ, frob (toMat 2 2 (Rnd.vals exDbl)) / 6 ≤
      colNorm (toMat 2 2 (Rnd.vals exDbl) * toMat 2 2 (Rnd.vals q) - μ • toMat 2 2 (Rnd.vals q)) 0 := by
  refine ⟨⟨rfl, rfl⟩, exDbl_symm, fun fuel => ?_⟩
  obtain ⟨vals, q, h, -, -, -, h1, h2, h3, h4⟩ := exDbl_run fuel
  refine ⟨vals, q, h, fun μ => ?_⟩
  obtain ⟨x, hx⟩ : ∃ x, x = -(q.get 0 0).v := ⟨_, rfl⟩
  obtain ⟨y, hy⟩ : ∃ y, y = (q.get 1 0).v := ⟨_, rfl⟩
  rw [← hx] at h1 h2
  rw [← hy] at h3 h4
  have hf : frob (toMat 2 2 (Rnd.vals exDbl)) ≤ 11 / 10 := by
    apply frob_le_of_sq (by norm_num)
    simp [Fin.sum_univ_two, toMat_apply, Rnd.vals, exDbl, ofRows]
    norm_num
  have hc : 1 / 5 ≤ colNorm (toMat 2 2 (Rnd.vals exDbl) * toMat 2 2 (Rnd.vals q) - μ • toMat 2 2 (Rnd.vals q)) 0 := by
    unfold colNorm
    apply Real.le_sqrt_of_sq_le
    have e0 : (toMat 2 2 (Rnd.vals exDbl) * toMat 2 2 (Rnd.vals q) - μ • toMat 2 2 (Rnd.vals q)) 0 0 =
        x + 3 / 2 ^ 53 * y + μ * x := by
      simp [Matrix.mul_apply, Fin.sum_univ_two, toMat_apply, Rnd.vals, exDbl, ofRows, hx, hy]
      ring
    have e1 : (toMat 2 2 (Rnd.vals exDbl) * toMat 2 2 (Rnd.vals q) - μ • toMat 2 2 (Rnd.vals q)) 1 0 =
        -(3 / 2 ^ 53 * x) + (5 / 16 + 1 / 2 ^ 53) * y - μ * y := by
      simp [Matrix.mul_apply, Fin.sum_univ_two, toMat_apply, Rnd.vals, exDbl, ofRows, hx, hy]
    rw [Fin.sum_univ_two, e0, e1]
    obtain ⟨p, hp⟩ : ∃ p, p = x + 3 / 2 ^ 53 * y + μ * x := ⟨_, rfl⟩
    obtain ⟨r, hr⟩ : ∃ r, r = -(3 / 2 ^ 53 * x) + (5 / 16 + 1 / 2 ^ 53) * y - μ * y := ⟨_, rfl⟩
    rw [← hp, ← hr]
    have hcs : (p * y + r * x) ^ 2 ≤ (p ^ 2 + r ^ 2) * (x ^ 2 + y ^ 2) := by nlinarith [sq_nonneg (p * x - r * y)]
    have hpr : p * y + r * x = (21 / 16 + 1 / 2 ^ 53) * (x * y) + 3 / 2 ^ 53 * (y ^ 2 - x ^ 2) := by
      rw [hp, hr]; ring
    have hxy : 164 / 1000 * (986 / 1000) ≤ x * y := mul_le_mul h1 h3 (by norm_num) (by linarith)
    have hx2 : x ^ 2 ≤ (165 / 1000) ^ 2 := pow_le_pow_left₀ (by linarith) h2 2
    have hy2 : y ^ 2 ≤ (987 / 1000) ^ 2 := pow_le_pow_left₀ (by linarith) h4 2
    have hy3 : (986 / 1000) ^ 2 ≤ y ^ 2 := pow_le_pow_left₀ (by norm_num) h3 2
    have hlow : 212 / 1000 ≤ p * y + r * x := by rw [hpr]; nlinarith
    have hlow2 : (212 / 1000) ^ 2 ≤ (p * y + r * x) ^ 2 := pow_le_pow_left₀ (by norm_num) hlow 2
    have hpos : 0 ≤ p ^ 2 + r ^ 2 := by positivity
    nlinarith
  linarith

/-- **C85**, in part: on runs whose `2 × 2` blocks `[[x, o], [o, y]]` all satisfy `y - x ≤ K |o|`, the values and the
vectors that `eigh` returns are together close to one exact decomposition: an exactly orthogonal `P` is within
`√n · eigOrthErr` of the matrix of vectors, and `P diag(vals) Pᵀ` is within `eigVecErr · ‖A‖_F` of `A`. Missing: the
other runs, for which the claim fails (`C85_false`). -/
theorem C85_decomposition_partial {n : Nat} (fuel : Nat) (a : Arr2 (Rnd R)) (ha : HasShape a n n)
    (hs : (toMat n n (Rnd.vals a)).IsSymm) (hR : EigArith R n) {K : ℝ} (hK : 0 ≤ K)
    (hgood : ∀ st, EigVisits a true NdFloat.epsilon st → BlockGood K st)
    (vals : Arr1 (Rnd R)) (q : Arr2 (Rnd R)) (h : eigh fuel a = .ok (vals, q)) :
    vals.len = n ∧ HasShape q n n ∧ ∃ P : Matrix (Fin n) (Fin n) ℝ, Pᵀ * P = 1 ∧
      frob (toMat n n (Rnd.vals q) - P) ≤ Real.sqrt n * eigOrthErr R n fuel ∧
      frob (toMat n n (Rnd.vals a) - P * diagonal (fun i : Fin n => (vals.get i).v) * Pᵀ) ≤
        eigVecErr R K n fuel * frob (toMat n n (Rnd.vals a)) := by
  obtain ⟨hu, hw, hc, heps⟩ := hR
  unfold eigh eighInto at h
  rcases Nat.eq_zero_or_pos n with rfl | hn
  · rw [symmetricEig_empty fuel a true NdFloat.epsilon (by rw [ha.1, ha.2]) ha.1] at h
    simp only [if_true, ok_bind, Except.ok.injEq, Prod.mk.injEq] at h
    obtain ⟨rfl, rfl⟩ := h
    refine ⟨rfl, ⟨rfl, rfl⟩, 1, ?_, ?_, ?_⟩ <;> first | (ext i; exact i.elim0) | skip
    · rw [show toMat 0 0 (Rnd.vals (Arr2.zeros 0 0 : Arr2 (Rnd R))) - 1 = 0 by ext i; exact i.elim0]; simp
    · rw [show ∀ X : Matrix (Fin 0) (Fin 0) ℝ, frob X = 0 by intro X; simp [frob],
        show ∀ X : Matrix (Fin 0) (Fin 0) ℝ, frob X = 0 by intro X; simp [frob], mul_zero]
  · have hg := symmetricEig_good fuel a true (eps := NdFloat.epsilon) rfl heps ha hn hs hu hw hc hK hgood
    cases hx : symmetricEig fuel a true NdFloat.epsilon with
    | error e => rw [hx] at h; cases h
    | ok r =>
      obtain ⟨vals', q'⟩ := r
      rw [hx] at h hg
      obtain ⟨h1, h2, h3, P, hP, h4, h5⟩ := hg
      obtain ⟨Q, rfl⟩ := Option.isSome_iff_exists.1 h3
      simp only [ok_bind, Except.ok.injEq, Prod.mk.injEq] at h
      obtain ⟨rfl, rfl⟩ := h
      have h6 := h5 Q rfl
      rw [Matrix.one_mul, add_sub_cancel_left, mul_comm] at h6
      rw [add_sub_cancel_left] at h4
      exact ⟨h1, h2 Q rfl, P, hP, h6, h4⟩

/-- **C85**, in part: on the same runs the pairs that `eigh` returns are eigenpairs up to rounding,
`‖A Q - Q diag(vals)‖_F ≤ (eigVecErr + (2 + eigVecErr) √n eigOrthErr) ‖A‖_F`. -/
theorem C85_residual_partial {n : Nat} (fuel : Nat) (a : Arr2 (Rnd R)) (ha : HasShape a n n)
    (hs : (toMat n n (Rnd.vals a)).IsSymm) (hR : EigArith R n) {K : ℝ} (hK : 0 ≤ K)
    (hgood : ∀ st, EigVisits a true NdFloat.epsilon st → BlockGood K st)
    (vals : Arr1 (Rnd R)) (q : Arr2 (Rnd R)) (h : eigh fuel a = .ok (vals, q)) :
    frob (toMat n n (Rnd.vals a) * toMat n n (Rnd.vals q) -
      toMat n n (Rnd.vals q) * diagonal (fun i : Fin n => (vals.get i).v)) ≤
      (eigVecErr R K n fuel + (2 + eigVecErr R K n fuel) * (Real.sqrt n * eigOrthErr R n fuel)) *
        frob (toMat n n (Rnd.vals a)) := by
  obtain ⟨-, -, P, hP, h1, h2⟩ := C85_decomposition_partial fuel a ha hs hR hK hgood vals q h
  generalize toMat n n (Rnd.vals a) = A at h2 ⊢
  generalize toMat n n (Rnd.vals q) = Q at h1 ⊢
  generalize diagonal (fun i : Fin n => (vals.get i).v) = D at h2 ⊢
  generalize eigVecErr R K n fuel = η at h2 ⊢
  generalize Real.sqrt n * eigOrthErr R n fuel = δ at h1 ⊢
  have hPP := mul_eq_one_comm.1 hP
  have hD : frob D ≤ (1 + η) * frob A := Simil.norm ⟨P, hP, by rwa [add_sub_cancel_left]⟩
  have e : A * Q - Q * D = A * (Q - P) + ((A - P * D * Pᵀ) * P - (Q - P) * D) := by
    have : P * D * Pᵀ * P = P * D := by rw [Matrix.mul_assoc, hP, Matrix.mul_one]
    rw [Matrix.mul_sub, Matrix.sub_mul A, this, Matrix.sub_mul]
    abel
  rw [e]
  have t1 := frob_add_le (A * (Q - P)) ((A - P * D * Pᵀ) * P - (Q - P) * D)
  have t2 := frob_sub_le ((A - P * D * Pᵀ) * P) 0 ((Q - P) * D)
  rw [sub_zero, zero_sub, frob_neg, frob_mul_orth hPP] at t2
  have t3 := frob_mul_le A (Q - P)
  have t4 := frob_mul_le (Q - P) D
  have t5 : frob A * frob (Q - P) ≤ frob A * δ := mul_le_mul_of_nonneg_left h1 (frob_nonneg _)
  have t6 : frob (Q - P) * frob D ≤ δ * ((1 + η) * frob A) :=
    mul_le_mul h1 hD (frob_nonneg _) ((frob_nonneg _).trans h1)
  linarith

/-- A `2 × 2` matrix has only one block to solve: the loop ends after it. -/
theorem EigVisits.two {a : Arr2 (Rnd R)} (ha : HasShape a 2 2) {ev : Bool} {eps : Rnd R} {st : EigState (Rnd R)}
    (h : EigVisits a ev eps st) : EigStart a ev eps st ∧ st.end < 2 ∨ st.end = st.start := by
  have key : ∀ st, EigStart a ev eps st → EigShape 2 eps st := by
    rintro ⟨diag, off, q, s, e⟩ ⟨t, ht, h1, h2, h3, h4⟩
    obtain ⟨t', ht', -, q', -, g1, g2, -, g3⟩ := symmetricEig_cases 0 a ev eps (by rw [ha.1, ha.2]) (by rw [ha.1]; omega)
    rw [ht, Except.ok.injEq] at ht'
    subst ht'
    obtain ⟨off', s', e', g4, -, g5, -⟩ := g3 (by rw [ha.1]; omega)
    simp only at h1 h2 h3 h4
    rw [h4, Except.ok.injEq, Prod.mk.injEq, Prod.mk.injEq] at g4
    obtain ⟨rfl, rfl, rfl⟩ := g4
    have hq : q = q' := by
      cases q with
      | none =>
        cases q' with
        | none => rfl
        | some y => exact absurd (h1.trans g1.symm) (by simp)
      | some x =>
        cases q' with
        | none => exact absurd (h1.trans g1.symm) (by simp)
        | some y =>
          have := (h2 x rfl).symm.trans (g2 y rfl)
          rw [Except.ok.injEq] at this
          rw [this]
    rw [hq, h3]
    rw [ha.1] at g5
    exact g5
  induction h with
  | start h => exact Or.inl ⟨h, (key _ h).lt⟩
  | @step st st' h hne hst ih =>
    rcases ih with ⟨ih, -⟩ | ih
    · right
      have hsh := key _ ih
      have hlt := hsh.lt
      have hle := hsh.le
      have hse : st.start = 0 ∧ st.end = 1 := by omega
      have := wp_eigStep (E := fun _ => True) hsh hne (fun mid => mid.end = 0) (fun _ => by
        rw [eig2x2_eq hsh (by omega)]
        split
        · trivial
        · simp only [wp_ok]; omega) (fun r e h1 => by omega)
      rw [hst] at this
      obtain ⟨-, mid, h1, -, -, -, -, ds⟩ := this
      have h2 := ds.le
      have h3 := ds.zero (by omega)
      omega
    · exact absurd ih hne

/-- The assumptions hold on a run that solves a block: `[[1, 1/2], [1/2, 1]]` in double precision. The bound is small
for such runs. -/
example : HasShape exDblGood 2 2 ∧ (toMat 2 2 (Rnd.vals exDblGood)).IsSymm ∧ EigArith .double 2 ∧
    (∀ st, EigVisits exDblGood true NdFloat.epsilon st → BlockGood 0 st) ∧
    (∃ vals q, eigh 1 exDblGood = .ok (vals, q)) ∧ eigVecErr .double 1 100 3000 ≤ 1e-6 := by
  refine ⟨⟨rfl, rfl⟩, ?_, eigArith_double (by norm_num), fun st hst => ?_, exDblGood_run 0, ?_⟩
  · ext i j
    fin_cases i <;> fin_cases j <;> simp [toMat_apply, Rnd.vals, exDblGood, ofRows]
  · intro hs
    rcases EigVisits.two (a := exDblGood) ⟨rfl, rfl⟩ hst with ⟨⟨t, ht, -, -, hd, -⟩, hlt⟩ | h
    · obtain ⟨-, t', q, ht', -, -, -, t4, t5, -⟩ := exDblGood_tri
      rw [ht, Except.ok.injEq] at ht'
      subst ht'
      have h0 : st.start = 0 := by omega
      rw [h0, hd, zero_mul]
      simp [TridiagonalDecomp.intoDiagonals, Arr2.diag, t4, t5]
    · omega
  · have h1 := one_add_pow_sub_one_le (c := (1 + blockErr .double 1) * (1 + deflErr .double) - 1) ?_ (100 * (3000 + 1)) ?_
    · rw [add_sub_cancel] at h1
      have h2 : 0 ≤ (1 + StdModel.double.u) ^ 2 * (1 + triErr .double 100) := by
        norm_num [StdModel.double, triErr, gam]
      unfold eigVecErr
      have := mul_le_mul_of_nonneg_left (sub_le_iff_le_add'.1 h1) h2
      refine (sub_le_sub_right this 1).trans ?_
      norm_num [StdModel.double, rotErr, deflErr, gam, triErr, StdModel.uw, blockErr]
    · norm_num [StdModel.double, rotErr, deflErr, gam, triErr, StdModel.uw, blockErr]
    · norm_num [StdModel.double, rotErr, deflErr, gam, triErr, StdModel.uw, blockErr]

end LinfaLinalg
