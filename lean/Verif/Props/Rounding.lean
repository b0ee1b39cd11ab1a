import Verif.Proofs.RoundedChol
import Verif.Props.Cholesky
import Verif.Model.Norm

/-! # C65–C69: rounding errors of the direct solvers and of the norms

The scalar type is `Rnd R`, the standard model of floating-point arithmetic: every operation has a
relative error of at most `R.u`. -/

namespace LinfaLinalg

open Matrix

variable {R : StdModel}

/-- A concrete array of floats: `[[2, 0], [1, 3]]`. -/
noncomputable def exRnd (R : StdModel) : Arr2 (Rnd R) :=
  ⟨2, 2, fun i j => ⟨(ofRows 2 2 [[2, 0], [1, 3]]).get i j⟩⟩

/-! ## C65 -/

theorem triMat_self {n : Nat} (uplo : UPLO) (a : Arr2 ℝ) :
    triMat n uplo a (fun i => a.get i i) = triPart uplo (toMat n n a) := by
  ext i j
  simp only [triMat, triPart, Matrix.of_apply, toMat_apply]
  by_cases h : i = j
  · subst h
    rw [if_pos rfl, if_pos (by cases uplo <;> simp)]
  · rw [if_neg h]

/-- C65: `solve_triangular` is backward stable: column `j` of the result solves exactly a triangular
system whose matrix differs from the given one, entry by entry, by a relative error of at most
`γ_n = n u / (1 - n u)`. The right-hand side is not perturbed. -/
theorem C65_backward_error {n m : Nat} (a b : Arr2 (Rnd R)) (uplo : UPLO) (ha : HasShape a n n)
    (hb : HasShape b n m) (hd : ∀ i, i < n → (a.get i i).v ≠ 0) (hn : n * R.u < 1) :
    ∃ x, solveTriangular a b uplo = .ok x ∧ HasShape x n m ∧
      ∀ j : Fin m, ∃ E : Matrix (Fin n) (Fin n) ℝ,
        (∀ r c, |E r c| ≤ gam R.u n * |triPart uplo (toMat n n (Rnd.vals a)) r c|) ∧
        (triPart uplo (toMat n n (Rnd.vals a)) + E).mulVec (fun r : Fin n => (x.get r j).v) =
          fun r : Fin n => (b.get r j).v := by
  have h := solveTriangularSystem_rounded a b uplo (fun i => a.at i i) (fun i => a.get i i) ha hb
    (fun i hi => Arr2.at_ok (by rw [ha.1]; exact hi) (by rw [ha.2]; exact hi)) hd hn
  have e : triMat n uplo (Rnd.vals a) (fun i => (a.get i i).v) =
      triPart uplo (toMat n n (Rnd.vals a)) := triMat_self uplo (Rnd.vals a)
  rw [e] at h
  exact h

/-- C65: the residual is small entry by entry: `|b - T x| ≤ γ_n |T| |x|`. -/
theorem C65_residual {n m : Nat} (a b x : Arr2 (Rnd R)) (uplo : UPLO) (ha : HasShape a n n)
    (hb : HasShape b n m) (hd : ∀ i, i < n → (a.get i i).v ≠ 0) (hn : n * R.u < 1)
    (hx : solveTriangular a b uplo = .ok x) (i : Fin n) (j : Fin m) :
    |(toMat n m (Rnd.vals b) - triPart uplo (toMat n n (Rnd.vals a)) * toMat n m (Rnd.vals x)) i j| ≤
      gam R.u n * (absMat (triPart uplo (toMat n n (Rnd.vals a))) * absMat (toMat n m (Rnd.vals x))) i j
    := by
  obtain ⟨x', hx', -, h⟩ := C65_backward_error a b uplo ha hb hd hn
  rw [hx] at hx'
  cases hx'
  obtain ⟨E, hE, e⟩ := h j
  have ei := congrFun e i
  have e1 : (toMat n m (Rnd.vals b) - triPart uplo (toMat n n (Rnd.vals a)) *
      toMat n m (Rnd.vals x)) i j = ∑ c, E i c * (x.get c j).v := by
    rw [Matrix.sub_apply, Matrix.mul_apply]
    rw [Matrix.mulVec, dotProduct] at ei
    have : toMat n m (Rnd.vals b) i j = (b.get i j).v := rfl
    rw [this, ← ei, ← Finset.sum_sub_distrib]
    apply Finset.sum_congr rfl
    intro c _
    rw [Matrix.add_apply]
    have : toMat n m (Rnd.vals x) c j = (x.get c j).v := rfl
    rw [this]
    ring
  rw [e1, Matrix.mul_apply, Finset.mul_sum]
  refine (Finset.abs_sum_le_sum_abs _ _).trans (Finset.sum_le_sum ?_)
  intro c _
  rw [abs_mul, ← mul_assoc]
  exact mul_le_mul_of_nonneg_right (hE i c) (abs_nonneg _)

/-- The hypotheses of C65 are met by a concrete array in double precision. -/
example : HasShape (exRnd .double) 2 2 ∧ (∀ i, i < 2 → ((exRnd .double).get i i).v ≠ 0) ∧
    ((2 : Nat) : ℝ) * StdModel.double.u < 1 := by
  refine ⟨⟨rfl, rfl⟩, ?_, ?_⟩
  · intro i hi
    interval_cases i <;> norm_num [exRnd, ofRows]
  · norm_num [StdModel.double]

/-! ## C66 -/

theorem vals_cleanLower {n : Nat} (b : Arr2 (Rnd R)) (hb : b.nr = n) :
    toMat n n (Rnd.vals (cleanLower b)) = triPart .lower (toMat n n (Rnd.vals b)) := by
  ext i j
  simp only [toMat_apply, Rnd.vals, triPart, Matrix.of_apply, inTri_lower, cleanLower]
  by_cases h : (j : Nat) ≤ i
  · rw [if_pos h, if_neg (by omega)]
  · rw [if_neg h, if_pos (by omega)]; rfl

/-- C66: when `cholesky` returns `L` in rounded arithmetic, `L` is lower triangular with positive
diagonal and `L Lᵀ` differs from `A` by at most `γ_(n+2) |L| |L|ᵀ`, entry by entry; hence by at most
`γ / (1 - γ) √(A i i * A j j)`, which does not depend on `L`. -/
theorem C66_backward_error {n : Nat} (a l : Arr2 (Rnd R)) (ha : HasShape a n n)
    (hs : (toMat n n (Rnd.vals a)).IsSymm) (hn : ((n + 2 : Nat) : ℝ) * R.u < 1)
    (h : cholesky a = .ok l) :
    HasShape l n n ∧ LowerPos (toMat n n (Rnd.vals l)) ∧
      (∀ i j, |(toMat n n (Rnd.vals l) * (toMat n n (Rnd.vals l)).transpose -
        toMat n n (Rnd.vals a)) i j| ≤ gam R.u (n + 2) *
          (absMat (toMat n n (Rnd.vals l)) * (absMat (toMat n n (Rnd.vals l))).transpose) i j) ∧
      (gam R.u (n + 2) < 1 → ∀ i j,
        |(toMat n n (Rnd.vals l) * (toMat n n (Rnd.vals l)).transpose - toMat n n (Rnd.vals a)) i j| ≤
          gam R.u (n + 2) / (1 - gam R.u (n + 2)) *
            Real.sqrt ((a.get i i).v * (a.get j j).v)) := by
  obtain ⟨rfl, ha2⟩ := ha
  rcases cholesky_cases a ha2.symm with ⟨b, hb, hr, -, -⟩ | ⟨hb, -⟩
  · rw [hb] at h
    cases h
    have hbound := rnd_cholRows_mul hr hs hn
    refine ⟨⟨hr.nr, hr.nc.trans ha2⟩, ?_, ?_, ?_⟩
    · rw [vals_cleanLower _ hr.nr]
      constructor
      · intro i j hij
        rw [triPart_lower_apply, lowEnt, if_neg (by simpa using hij)]
      · intro i
        rw [triPart_lower_apply, lowEnt, if_pos le_rfl]
        exact rnd_cholRows_pos hr i i.2
    · intro i j
      rw [vals_cleanLower _ hr.nr]
      exact hbound i j
    · intro hg i j
      rw [vals_cleanLower _ hr.nr]
      have h2 := (abs_mul_transpose_le hg (fun i => hbound i i) i j).2
      refine (hbound i j).trans ?_
      rw [div_mul_eq_mul_div, mul_div_assoc]
      exact mul_le_mul_of_nonneg_left h2 (gam_nonneg R.u_nonneg hn)
  · rw [hb] at h
    cases h

/-! ## C67 -/

/-- C67: `solvec` is backward stable: column `j` of the result solves exactly a system with a matrix
within `γ_(3n+2) |L| |L|ᵀ` of `A`, where `L` is the computed Cholesky factor. -/
theorem C67_backward_error {n m : Nat} (a b x : Arr2 (Rnd R)) (ha : HasShape a n n)
    (hb : HasShape b n m) (hs : (toMat n n (Rnd.vals a)).IsSymm)
    (hn : ((3 * n + 2 : Nat) : ℝ) * R.u < 1) (h : solvec a b = .ok x) (j : Fin m) :
    ∃ l, cholesky a = .ok l ∧ ∃ E : Matrix (Fin n) (Fin n) ℝ,
      (∀ r c, |E r c| ≤ gam R.u (3 * n + 2) *
        (absMat (toMat n n (Rnd.vals l)) * (absMat (toMat n n (Rnd.vals l))).transpose) r c) ∧
      (toMat n n (Rnd.vals a) + E).mulVec (fun r : Fin n => (x.get r j).v) =
        fun r : Fin n => (b.get r j).v := by
  obtain ⟨rfl, ha2⟩ := ha
  have hn1 : ((a.nr + 2 : Nat) : ℝ) * R.u < 1 := by
    refine lt_of_le_of_lt (mul_le_mul_of_nonneg_right ?_ R.u_nonneg) hn
    exact_mod_cast (by omega : a.nr + 2 ≤ 3 * a.nr + 2)
  have hn2 : (a.nr : ℝ) * R.u < 1 := by
    refine lt_of_le_of_lt (mul_le_mul_of_nonneg_right ?_ R.u_nonneg) hn
    exact_mod_cast (by omega : a.nr ≤ 3 * a.nr + 2)
  have hn3 : ((a.nr + a.nr : Nat) : ℝ) * R.u < 1 := by
    refine lt_of_le_of_lt (mul_le_mul_of_nonneg_right ?_ R.u_nonneg) hn
    exact_mod_cast (by omega : a.nr + a.nr ≤ 3 * a.nr + 2)
  rcases cholesky_cases a ha2.symm with ⟨l, hl, hr, hd, -⟩ | ⟨-, hd, -⟩
  · refine ⟨cleanLower l, hl, ?_⟩
    unfold solvec at h
    rw [hd] at h
    simp only [ok_bind] at h
    have hpos : ∀ i, i < a.nr → (l.get i i).v ≠ 0 := fun i hi => (rnd_cholRows_pos hr i hi).ne'
    obtain ⟨y, hy, sy, hY⟩ := C65_backward_error l b .lower ⟨hr.nr, hr.nc.trans ha2⟩ hb hpos hn2
    rw [hy] at h
    simp only [ok_bind] at h
    obtain ⟨x', hx', sx, hX⟩ := C65_backward_error l.t y .upper ⟨hr.nc.trans ha2, hr.nr⟩ sy hpos hn2
    rw [hx'] at h
    cases h
    obtain ⟨E1, hE1, e1⟩ := hY j
    obtain ⟨E2, hE2, e2⟩ := hX j
    rw [vals_cleanLower _ hr.nr]
    set L := triPart .lower (toMat a.nr a.nr (Rnd.vals l)) with hL
    have hLt : triPart .upper (toMat a.nr a.nr (Rnd.vals l.t)) = L.transpose := by
      ext i k
      simp [hL, triPart, Rnd.vals, Arr2.t]
    rw [hLt] at hE2 e2
    set g := gam R.u a.nr with hg
    have hg0 : 0 ≤ g := gam_nonneg R.u_nonneg hn2
    set A := toMat a.nr a.nr (Rnd.vals a) with hA
    have hE0 := rnd_cholRows_mul hr hs hn1
    rw [← hL, ← hA] at hE0
    refine ⟨(L + E1) * (L.transpose + E2) - A, ?_, ?_⟩
    · intro r c
      set P := (absMat L * (absMat L).transpose) r c with hP
      have b1 : |(E1 * L.transpose) r c| ≤ g * P := by
        rw [Matrix.mul_apply, hP, Matrix.mul_apply, Finset.mul_sum]
        refine (Finset.abs_sum_le_sum_abs _ _).trans (Finset.sum_le_sum fun k _ => ?_)
        rw [abs_mul, ← mul_assoc]
        exact mul_le_mul_of_nonneg_right (hE1 r k) (abs_nonneg _)
      have b2 : |(L * E2) r c| ≤ g * P := by
        rw [Matrix.mul_apply, hP, Matrix.mul_apply, Finset.mul_sum]
        refine (Finset.abs_sum_le_sum_abs _ _).trans (Finset.sum_le_sum fun k _ => ?_)
        rw [abs_mul]
        calc |L r k| * |E2 k c| ≤ |L r k| * (g * |L.transpose k c|) :=
              mul_le_mul_of_nonneg_left (hE2 k c) (abs_nonneg _)
          _ = g * (absMat L r k * (absMat L).transpose k c) := by
              simp only [absMat, Matrix.map_apply, Matrix.transpose_apply]; ring
      have b3 : |(E1 * E2) r c| ≤ g * g * P := by
        rw [Matrix.mul_apply, hP, Matrix.mul_apply, Finset.mul_sum]
        refine (Finset.abs_sum_le_sum_abs _ _).trans (Finset.sum_le_sum fun k _ => ?_)
        rw [abs_mul]
        calc |E1 r k| * |E2 k c| ≤ (g * |L r k|) * (g * |L.transpose k c|) :=
              mul_le_mul (hE1 r k) (hE2 k c) (abs_nonneg _) (mul_nonneg hg0 (abs_nonneg _))
          _ = g * g * (absMat L r k * (absMat L).transpose k c) := by
              simp only [absMat, Matrix.map_apply, Matrix.transpose_apply]; ring
      have b0 := hE0 r c
      have hP0 : 0 ≤ P := by
        rw [hP, Matrix.mul_apply]
        exact Finset.sum_nonneg fun k _ => mul_nonneg (abs_nonneg _) (abs_nonneg _)
      have hsplit : ((L + E1) * (L.transpose + E2) - A) r c =
          (L * L.transpose - A) r c + (E1 * L.transpose) r c + (L * E2) r c + (E1 * E2) r c := by
        rw [add_mul, mul_add, mul_add]
        simp only [Matrix.sub_apply, Matrix.add_apply]
        ring
      have hgg : gam R.u (a.nr + 2) + g + g + g * g ≤ gam R.u (3 * a.nr + 2) := by
        have h1 : g + g + g * g ≤ gam R.u (a.nr + a.nr) := gam_add R.u_nonneg hn3
        have hn4 : ((a.nr + 2 + (a.nr + a.nr) : Nat) : ℝ) * R.u < 1 := by
          rw [show a.nr + 2 + (a.nr + a.nr) = 3 * a.nr + 2 by omega]; exact hn
        have h2 := gam_add R.u_nonneg hn4
        rw [show a.nr + 2 + (a.nr + a.nr) = 3 * a.nr + 2 by omega] at h2
        have h3 := mul_nonneg (gam_nonneg R.u_nonneg hn1) (gam_nonneg R.u_nonneg hn3)
        linarith
      rw [hsplit]
      refine (abs_add_le _ _).trans ((add_le_add_left (abs_add_three _ _ _) _).trans ?_)
      have := mul_le_mul_of_nonneg_right hgg hP0
      nlinarith
    · rw [add_sub_cancel, ← Matrix.mulVec_mulVec, e2, e1]
  · unfold solvec at h
    rw [hd] at h
    cases h

/-! ## C68 -/

/-- A sum of non-negative numbers accumulated from zero is off by at most `n` factors. -/
theorem foldl_add_near (l : List (Rnd R)) (h : ∀ x ∈ l, 0 ≤ x.v) (s : Rnd R) (hs : 0 ≤ s.v) :
    ∃ t, Near R.u l.length t ∧ (l.foldl (· + ·) s).v = (s.v + (l.map Rnd.v).sum) * t := by
  have h0 := R.u_nonneg
  have h1 := R.u_lt_one
  induction l generalizing s with
  | nil => exact ⟨1, near_one h0 h1 _, by simp⟩
  | cons x l ih =>
    obtain ⟨q, hq, eq⟩ := R.rnd_near (s.v + x.v)
    have hq0 := hq.pos h0 h1
    have hx := h x (by simp)
    obtain ⟨t, ht, et⟩ := ih (fun y hy => h y (by simp [hy])) (s + x)
      (by rw [Rnd.add_v, eq]; positivity)
    have hl : 0 ≤ (l.map Rnd.v).sum := List.sum_nonneg (by
      intro y hy
      obtain ⟨z, hz, rfl⟩ := List.mem_map.1 hy
      exact h z (by simp [hz]))
    have ht0 := ht.pos h0 h1
    have p : 0 < 1 - R.u := by linarith
    rw [List.foldl_cons, et, Rnd.add_v, eq, List.map_cons, List.sum_cons, List.length_cons]
    set S := s.v + (x.v + (l.map Rnd.v).sum) with hS
    have hS0 : 0 ≤ S := by positivity
    by_cases hz : S = 0
    · have e1 : s.v = 0 := by linarith
      have e2 : x.v = 0 := by linarith
      have e3 : (l.map Rnd.v).sum = 0 := by linarith
      exact ⟨1, near_one h0 h1 _, by rw [hz, e1, e2, e3]; ring⟩
    · have hSp : 0 < S := lt_of_le_of_ne hS0 (Ne.symm hz)
      -- the factor is a weighted mean of `q` and `1`, times `t`
      refine ⟨((s.v + x.v) * q + (l.map Rnd.v).sum) / S * t, ?_, by field_simp⟩
      have hq1 : Near R.u 1 (((s.v + x.v) * q + (l.map Rnd.v).sum) / S) := by
        have qa := hq.1
        have qb := hq.2
        rw [pow_one] at qa qb
        constructor
        · rw [pow_one, le_div_iff₀ hSp]
          have e1 : (s.v + x.v) * (1 - R.u) ≤ (s.v + x.v) * q :=
            mul_le_mul_of_nonneg_left qa (by positivity)
          have e2 : (l.map Rnd.v).sum * (1 - R.u) ≤ (l.map Rnd.v).sum :=
            mul_le_of_le_one_right hl (by linarith)
          rw [hS]; linarith
        · rw [pow_one, div_mul_eq_mul_div, div_le_one hSp]
          have e1 : (s.v + x.v) * (q * (1 - R.u)) ≤ (s.v + x.v) :=
            mul_le_of_le_one_right (by positivity) qb
          have e2 : (l.map Rnd.v).sum * (1 - R.u) ≤ (l.map Rnd.v).sum :=
            mul_le_of_le_one_right hl (by linarith)
          rw [hS]; nlinarith
      exact (hq1.mul h0 h1 ht).mono h0 h1 (by omega)

/-- C68: `norm_max` is computed exactly. -/
theorem C68_norm_max (l : List (Rnd R)) :
    (normMax l).v = (l.map fun x => |x.v|).foldr max 0 := by
  unfold normMax
  have : ∀ (l : List (Rnd R)) (s : Rnd R),
      (l.foldl (fun f val => NdFloat.max (NdFloat.abs val) f) s).v =
        max s.v ((l.map fun x => |x.v|).foldr max 0) ∨ s.v < 0 := by
    intro l
    induction l with
    | nil =>
      intro s
      by_cases h : s.v < 0
      · exact Or.inr h
      · left; simpa using (max_eq_left (not_lt.1 h)).symm
    | cons x l ih =>
      intro s
      by_cases h : s.v < 0
      · exact Or.inr h
      · left
        rcases ih (NdFloat.max (NdFloat.abs x) s) with h' | h'
        · rw [List.foldl_cons, h']
          simp only [Rnd.max_v, Rnd.abs_v, List.map_cons, List.foldr_cons]
          rw [max_comm |x.v| s.v, max_assoc]
        · rw [Rnd.max_v, Rnd.abs_v] at h'
          exact absurd (lt_of_le_of_lt (le_max_left _ _) h') (not_lt.2 (abs_nonneg _))
  rcases this l 0 with h | h
  · rw [h, Rnd.zero_v]
    apply max_eq_right
    induction l with
    | nil => simp
    | cons x l _ => exact le_max_of_le_left (abs_nonneg _)
  · simp at h

/-- The hypothesis of the other two is met by a list of a million elements in double precision. -/
example : (((List.replicate 1000000 (1 : Rnd .double)).length + 2 : Nat) : ℝ) * StdModel.double.u < 1 := by
  rw [List.length_replicate]
  norm_num [StdModel.double]

/-- C68: `norm_l1` has a relative error of at most `γ_n`. -/
theorem C68_norm_l1 (l : List (Rnd R)) (hn : l.length * R.u < 1) :
    |(normL1 l).v - (l.map fun x => |x.v|).sum| ≤ gam R.u l.length * (l.map fun x => |x.v|).sum := by
  unfold normL1
  obtain ⟨t, ht, e⟩ := foldl_add_near (l.map NdFloat.abs)
    (by intro x hx; obtain ⟨y, -, rfl⟩ := List.mem_map.1 hx; exact abs_nonneg _) 0 (by simp)
  rw [List.length_map] at ht
  rw [e, Rnd.zero_v, zero_add, List.map_map]
  have e1 : (l.map (Rnd.v ∘ NdFloat.abs)) = l.map fun x => |x.v| := rfl
  rw [e1]
  set S := (l.map fun x => |x.v|).sum with hS
  have hS0 : 0 ≤ S := List.sum_nonneg (by
    intro y hy; obtain ⟨z, -, rfl⟩ := List.mem_map.1 hy; exact abs_nonneg _)
  have : S * t - S = (t - 1) * S := by ring
  rw [this, abs_mul, abs_of_nonneg hS0]
  exact mul_le_mul_of_nonneg_right (ht.abs_sub_one R.u_nonneg R.u_lt_one hn) hS0

/-- C68: `norm_l2` has a relative error of at most `γ_(n+2)`. -/
theorem C68_norm_l2 (l : List (Rnd R)) (hn : ((l.length + 2 : Nat) : ℝ) * R.u < 1) :
    |(normL2 l).v - Real.sqrt (l.map fun x => x.v ^ 2).sum| ≤
      gam R.u (l.length + 2) * Real.sqrt (l.map fun x => x.v ^ 2).sum := by
  have h0 := R.u_nonneg
  have h1 := R.u_lt_one
  have p : 0 < 1 - R.u := by linarith
  unfold normL2
  have hsq : ∀ x : Rnd R, 0 ≤ (x * x).v := by
    intro x
    obtain ⟨q, hq, eq⟩ := R.rnd_near (x.v * x.v)
    rw [Rnd.mul_v, eq]
    exact mul_nonneg (mul_self_nonneg _) (hq.pos h0 h1).le
  obtain ⟨t, ht, e⟩ := foldl_add_near (l.map fun x => x * x)
    (by intro x hx; obtain ⟨y, -, rfl⟩ := List.mem_map.1 hx; exact hsq y) 0 (by simp)
  rw [List.length_map] at ht
  -- the sum of the rounded squares is the sum of the squares times one factor
  have hsum : ∀ l : List (Rnd R), ∃ q, Near R.u 1 q ∧
      ((l.map fun x => x * x).map Rnd.v).sum = (l.map fun x => x.v ^ 2).sum * q := by
    intro l
    induction l with
    | nil => exact ⟨1, near_one h0 h1 _, by simp⟩
    | cons x l ih =>
      obtain ⟨q, hq, eq⟩ := ih
      obtain ⟨s, hs, es⟩ := R.rnd_near (x.v * x.v)
      simp only [List.map_cons, List.sum_cons, eq, Rnd.mul_v, es]
      set S := (l.map fun x => x.v ^ 2).sum with hS
      have hS0 : 0 ≤ S := List.sum_nonneg (by
        intro y hy; obtain ⟨z, -, rfl⟩ := List.mem_map.1 hy; exact sq_nonneg _)
      have hx0 : 0 ≤ x.v ^ 2 := sq_nonneg _
      by_cases hz : x.v ^ 2 + S = 0
      · have e1 : x.v ^ 2 = 0 := by linarith
        have e2 : S = 0 := by linarith
        have e3 : x.v = 0 := by simpa using e1
        exact ⟨1, near_one h0 h1 _, by rw [e2, e3]; ring⟩
      · have hp : 0 < x.v ^ 2 + S := lt_of_le_of_ne (by positivity) (Ne.symm hz)
        refine ⟨(x.v ^ 2 * s + S * q) / (x.v ^ 2 + S), ?_, by field_simp⟩
        have := hs.1; have := hs.2; have := hq.1; have := hq.2
        simp only [pow_one] at *
        constructor
        · rw [pow_one, le_div_iff₀ hp]
          nlinarith
        · rw [pow_one, div_mul_eq_mul_div, div_le_one hp]
          nlinarith
  obtain ⟨q, hq, eq⟩ := hsum l
  rw [eq] at e
  obtain ⟨s, hs, es⟩ := R.rnd_near (Real.sqrt ((l.map fun x => x * x).foldl (· + ·) 0).v)
  rw [Rnd.sqrt_v, es, e, Rnd.zero_v, zero_add]
  set S := (l.map fun x => x.v ^ 2).sum with hS
  have hS0 : 0 ≤ S := List.sum_nonneg (by
    intro y hy; obtain ⟨z, -, rfl⟩ := List.mem_map.1 hy; exact sq_nonneg _)
  rw [mul_assoc, Real.sqrt_mul hS0]
  have hN : Near R.u (l.length + 2) (Real.sqrt (q * t) * s) :=
    ((((hq.mul h0 h1 ht).sqrt h0 h1).mul h0 h1 hs)).mono h0 h1 (by omega)
  have e2 : Real.sqrt S * Real.sqrt (q * t) * s - Real.sqrt S =
      (Real.sqrt (q * t) * s - 1) * Real.sqrt S := by ring
  rw [e2, abs_mul, abs_of_nonneg (Real.sqrt_nonneg S)]
  exact mul_le_mul_of_nonneg_right (hN.abs_sub_one h0 h1 hn) (Real.sqrt_nonneg S)

/-! ## C69 -/

/-- C69: `cholesky` and `solvec` do not fail, in rounded arithmetic, on a symmetric matrix that is well
conditioned after scaling its diagonal to one. In exact arithmetic (`u = 0`) the condition is positive
definiteness. -/
theorem C69_succeeds {n m : Nat} (a b : Arr2 (Rnd R)) (ha : HasShape a n n) (hb : HasShape b n m)
    (hs : (toMat n n (Rnd.vals a)).IsSymm) (hn : ((n + 2 : Nat) : ℝ) * R.u < 1) (δ : ℝ) (hδ0 : 0 < δ)
    (hpos : ∀ i, i < n → 0 < (a.get i i).v)
    (hcond : ∀ x : Fin n → ℝ, δ * ∑ i : Fin n, (a.get i i).v * x i ^ 2 ≤
      x ⬝ᵥ (toMat n n (Rnd.vals a)).mulVec x)
    (hδ : 2 * n * gam R.u (n + 2) < δ * (1 - gam R.u (n + 2))) :
    (∃ l, cholesky a = .ok l) ∧ ∃ x, solvec a b = .ok x ∧ HasShape x n m := by
  obtain ⟨rfl, ha2⟩ := ha
  have hn2 : (a.nr : ℝ) * R.u < 1 := by
    refine lt_of_le_of_lt (mul_le_mul_of_nonneg_right ?_ R.u_nonneg) hn
    exact_mod_cast (by omega : a.nr ≤ a.nr + 2)
  rcases cholesky_cases a ha2.symm with ⟨l, hl, hr, hd, -⟩ | ⟨-, -, l, j, hj, hf, -⟩
  · refine ⟨⟨_, hl⟩, ?_⟩
    unfold solvec
    rw [hd]
    have hp : ∀ i, i < a.nr → (l.get i i).v ≠ 0 := fun i hi => (rnd_cholRows_pos hr i hi).ne'
    obtain ⟨y, hy, sy, -⟩ := C65_backward_error l b .lower ⟨hr.nr, hr.nc.trans ha2⟩ hb hp hn2
    obtain ⟨x, hx, sx, -⟩ := C65_backward_error l.t y .upper ⟨hr.nc.trans ha2, hr.nr⟩ sy hp hn2
    refine ⟨x, ?_, sx⟩
    simp only [ok_bind, hy, hx]
  · exact (rnd_chol_not_failed hj hf hs hn hδ0 hpos hcond hδ).elim

/-- The matrix `[[4, 2], [2, 5]]` in floats. -/
noncomputable def exRndSpd (R : StdModel) : Arr2 (Rnd R) :=
  ⟨2, 2, fun i j => ⟨(ofRows 2 2 [[4, 2], [2, 5]]).get i j⟩⟩

/-- The hypotheses of C66, C67 and C69 are met by a concrete matrix in double precision. -/
theorem exRndSpd_succeeds : (toMat 2 2 (Rnd.vals (exRndSpd .double))).IsSymm ∧
    ((3 * 2 + 2 : Nat) : ℝ) * StdModel.double.u < 1 ∧
    (∃ l, cholesky (exRndSpd .double) = .ok l) ∧
    ∃ x, solvec (exRndSpd .double) (exRnd .double) = .ok x ∧ HasShape x 2 2 := by
  have hs : (toMat 2 2 (Rnd.vals (exRndSpd .double))).IsSymm := by
    ext i j
    fin_cases i <;> fin_cases j <;> simp [exRndSpd, Rnd.vals, ofRows]
  refine ⟨hs, by norm_num [StdModel.double], ?_⟩
  refine C69_succeeds _ _ ⟨rfl, rfl⟩ ⟨rfl, rfl⟩ hs (by norm_num [StdModel.double]) (1 / 2)
    (by norm_num) ?_ ?_ ?_
  · intro i hi
    interval_cases i <;> norm_num [exRndSpd, ofRows]
  · intro x
    simp only [dotProduct, Matrix.mulVec, Fin.sum_univ_two, toMat_apply, Rnd.vals, exRndSpd, ofRows]
    norm_num
    nlinarith [sq_nonneg (x 0 + x 1), sq_nonneg (x 1)]
  · norm_num [gam, StdModel.double]

end LinfaLinalg
