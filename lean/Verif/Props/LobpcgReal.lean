import Verif.Props.Lobpcg
import Verif.Props.Norm
import Verif.Proofs.LobpcgEig
import Verif.Model.TruncatedEig
import Mathlib.LinearAlgebra.Matrix.ToLin

/-! # C44, C46, C47, C48, C50, C56: what `lobpcg` returns -/

set_option linter.unusedSectionVars false

namespace LinfaLinalg

open Matrix

/-- **C50**: `orthonormalize` succeeds exactly when the columns are linearly independent; then the new
columns are orthonormal, and the old ones are recovered with the lower triangular factor. -/
theorem C50_orthonormalize {n m : Nat} (v : Arr2 ℝ) (hv : HasShape v n m) :
    (LinearIndependent ℝ (toMat n m v).col → ∃ u l, orthonormalize v = .ok (u, l) ∧
      HasShape u n m ∧ HasShape l m m ∧ (toMat n m u)ᵀ * toMat n m u = 1 ∧
      LowerPos (toMat m m l) ∧ toMat n m v = toMat n m u * (toMat m m l)ᵀ) ∧
    (¬ LinearIndependent ℝ (toMat n m v).col →
      orthonormalize v = .error (.err .notPositiveDefinite)) := by
  have hli : LinearIndependent ℝ (toMat n m v).col ↔ ∀ x, (toMat n m v).mulVec x = 0 → x = 0 := by
    rw [← Matrix.mulVec_injective_iff]
    constructor
    · intro h x hx
      exact h (by rw [hx, Matrix.mulVec_zero])
    · intro h x y hxy
      have := h (x - y) (by rw [Matrix.mulVec_sub, sub_eq_zero]; exact hxy)
      exact sub_eq_zero.1 this
  rw [hli]
  obtain ⟨h1, h2⟩ := orthonormalize_cases hv
  refine ⟨fun h => ?_, h2⟩
  obtain ⟨u, l, hul⟩ := h1 h
  obtain ⟨su, sl, pl, e, o⟩ := orthonormalize_mat hul hv
  refine ⟨u, l, hul, su, sl, o, pl, ?_⟩
  rw [← Matrix.transpose_transpose (toMat n m v), ← e, Matrix.transpose_mul,
    Matrix.transpose_transpose]

/-- Both cases occur: `(1, 2)ᵀ` is independent, `0` is not. -/
example : LinearIndependent ℝ (toMat 2 1 (ofRows 2 1 [[1], [2]])).col ∧
    ¬ LinearIndependent ℝ (toMat 2 1 (ofRows 2 1 [[0], [0]])).col := by
  constructor
  · rw [← Matrix.mulVec_injective_iff]
    intro x y h
    have := congrFun h 0
    simp [Matrix.mulVec, dotProduct, toMat, ofRows] at this
    ext i
    fin_cases i
    exact this
  · intro h
    have := h.ne_zero 0
    apply this
    ext i
    fin_cases i <;> simp [Matrix.col, toMat, ofRows]

section
variable {α : Type} [Zero α] [One α] [Add α] [Sub α] [Mul α] [Div α] [Neg α] [NdFloat α]

theorem neverErr_catch {β : Type} {p : LinalgError → Prop} {m : M β} (h : NeverErr p m)
    {e : LinalgError} (hc : catchM m = .ok (.error e)) : ¬ p e :=
  h e (catchM_eq_err.1 hc)

theorem neverErr_hcat {p : LinalgError → Prop} (a b : Arr2 α) : NeverErr p (a.hcat b) := by
  unfold Arr2.hcat; split_ifs
  · exact .ok _
  · exact .panic

theorem neverErr_vcat {p : LinalgError → Prop} (a b : Arr2 α) : NeverErr p (a.vcat b) := by
  unfold Arr2.vcat; split_ifs
  · exact .ok _
  · exact .panic

theorem neverErr_block2 {p : LinalgError → Prop} (a b c : Arr2 α) : NeverErr p (block2 a b c) :=
  .bind (neverErr_hcat _ _) fun _ => .bind (neverErr_hcat _ _) fun _ => neverErr_vcat _ _

theorem neverErr_eig2 {eig : EigSolver α} (heig : ∀ a, NeverErr IsNotThin (eig a)) (order : Order)
    (st : LobState α) (g : XRGram α) : NeverErr IsNotThin (eig2 eig order st g) :=
  .bind (neverErr_block2 _ _ _) fun _ => .bind (neverErr_block2 _ _ _) fun _ =>
    .bind (neverErr_sortedEig heig _ _ _ _) fun _ => .ok _

theorem lobTail_notThin {eig : EigSolver α} (heig : ∀ a, NeverErr IsNotThin (eig a))
    {P : LobParams α} {cholYY : Option (Arr2 α)} {st : LobState α} {r0 : Arr2 α} {norms : List α}
    {e : LinalgError} (h : lobTail eig P cholYY st r0 norms = .ok (.error e)) : ¬ IsNotThin e := by
  unfold lobTail at h
  simp only [bind_eq_ok] at h
  obtain ⟨v, hv, w, hw, u, hu, xv, hxv, z, hz, o, ho, h⟩ := h
  rcases o with e' | ⟨r, l⟩
  · simp only at h
    injection h with h
    injection h with h
    subst h
    exact neverErr_catch (neverErr_orthonormalize _) ho
  simp only [bind_eq_ok] at h
  obtain ⟨ar, har, g, hg, pap, hpap, ⟨pap', res⟩, hres, h⟩ := h
  rcases res with e' | ⟨lambda, vecs, gram⟩
  · simp only at h
    injection h with h
    injection h with h
    subst h
    unfold lobEig at hres
    simp only [bind_eq_ok] at hres
    obtain ⟨first, -, hres⟩ := hres
    rcases first with e2 | v2
    · simp only [bind_eq_ok] at hres
      obtain ⟨v, hv, hres⟩ := hres
      injection hres with hres
      simp only [Prod.mk.injEq] at hres
      obtain ⟨-, rfl⟩ := hres
      exact neverErr_catch (neverErr_eig2 heig _ _ _) hv
    · simp only at hres
      injection hres with hres
      simp at hres
  · simp only [bind_eq_ok] at h
    obtain ⟨tau, htau, ⟨p, ap⟩, hp, xt, hxt, x, hx, axt, haxt, ax, hax, h⟩ := h
    injection h with h
    cases h

/-- C48: `NotThin`, for any eigensolver in place of `eigh_into` that does not itself return it. -/
theorem C48_notThin_run (eig : EigSolver α) (heig : ∀ a r c, eig a ≠ .error (.err (.notThin r c)))
    (P : LobParams α) (x0 : Arr2 α) (maxiter : Nat) :
    (x0.nr < x0.nc →
      lobpcgRun eig P x0 maxiter = .ok (.error (.notThin x0.nr x0.nc, none), [])) ∧
    ∀ r c b hist, lobpcgRun eig P x0 maxiter = .ok (.error (.notThin r c, b), hist) →
      x0.nr < x0.nc ∧ r = x0.nr ∧ c = x0.nc ∧ b = none := by
  have heig' : ∀ a, NeverErr IsNotThin (eig a) := by
    rintro a e he ⟨r, c, rfl⟩
    exact heig a r c he
  constructor
  · intro h
    unfold lobpcgRun
    simp only
    rw [if_pos h]
  · intro r c b hist h
    rcases lobpcgRun_inv h with ⟨e, he, hr, -⟩ | ⟨cholYY, st0, st, o, b', h1, h2, -, -, hr⟩
    · injection hr with hr
      simp only [Prod.mk.injEq] at hr
      obtain ⟨rfl, rfl⟩ := hr
      cases he with
      | notThin h' => exact ⟨h', rfl, rfl, rfl⟩
      | ortho _ x1 _ _ _ _ h1 => exact absurd ⟨r, c, rfl⟩ (neverErr_orthonormalize x1 _ h1)
      | eigen _ _ _ _ _ xax _ _ _ _ _ _ _ h1 => exact absurd ⟨r, c, rfl⟩ (neverErr_sortedEig heig' _ _ _ _ _ h1)
    · cases o with
      | none => cases hr
      | some e =>
        injection hr with hr
        simp only [Prod.mk.injEq] at hr
        obtain ⟨rfl, rfl⟩ := hr
        obtain ⟨r', norms, -, hend⟩ := lobLoop_rule (P := P) (cholYY := cholYY) (eig := eig)
          (I := fun _ => True) (J := fun _ _ _ => True) (fun _ _ _ _ _ _ => trivial)
          (fun _ _ _ _ _ _ _ _ => trivial) trivial h2
        exact absurd ⟨r, c, rfl⟩ (lobTail_notThin heig' hend.2.2)

/-- **C48**: `lobpcg` returns `NotThin` exactly when the start matrix has more columns than rows, and
then no result comes with it. For every scalar type, operator, preconditioner and constraint. -/
theorem C48_notThin (fuel : Nat) (P : LobParams α) (x0 : Arr2 α) (maxiter : Nat) :
    (x0.nr < x0.nc →
      lobpcg fuel P x0 maxiter = .ok (.error (.notThin x0.nr x0.nc, none))) ∧
    ∀ r c b, lobpcg fuel P x0 maxiter = .ok (.error (.notThin r c, b)) →
      x0.nr < x0.nc ∧ r = x0.nr ∧ c = x0.nc ∧ b = none := by
  obtain ⟨h1, h2⟩ := C48_notThin_run (eighInto fuel)
    (fun a r c h => neverErr_eighInto fuel a _ h ⟨r, c, rfl⟩) P x0 maxiter
  unfold lobpcg
  refine ⟨fun h => by rw [h1 h]; rfl, fun r c b h => ?_⟩
  simp only [bind_eq_ok] at h
  obtain ⟨⟨res, hist⟩, h3, h4⟩ := h
  simp only at h4
  injection h4 with h4
  subst h4
  exact h2 r c b hist h3

/-- **C48**: the shapes of every returned result, and of every iterate. -/
theorem C48_shapes [LawfulLe α] [LawfulLt α] (eig : EigSolver α) (P : LobParams α) (x0 : Arr2 α)
    (maxiter : Nat) (res : LobpcgResult α) (hist : List (Iterate α))
    (h : lobpcgRun eig P x0 maxiter = .ok (res, hist)) (b : Lobpcg α) (hb : Returned res b) :
    b.eigvals.len = x0.nc ∧ b.eigvecs.nr = x0.nr ∧ b.eigvecs.nc = x0.nc ∧ b.rnorm.length = x0.nc := by
  obtain ⟨⟨it, hit, rfl⟩, -⟩ := C42_best_iterate eig P x0 maxiter res hist h b hb
  obtain ⟨h1, h2, h3⟩ := lobpcgRun_shapes h it hit
  exact ⟨h1, h2.1, h2.2, h3⟩

end

/-- A column is normalised by `orthonormalize`. -/
theorem orthonormalize_col {n : Nat} {v : Arr2 ℝ} (hv : HasShape v n 1)
    (h0 : 0 < ∑ i : Fin n, v.get i 0 ^ 2) :
    ∃ u l, orthonormalize v = .ok (u, l) ∧ HasShape u n 1 ∧
      ∀ i : Fin n, u.get i 0 = v.get i 0 / Real.sqrt (∑ i : Fin n, v.get i 0 ^ 2) := by
  obtain ⟨h1, -⟩ := orthonormalize_cases hv
  have hind : ∀ x, (toMat n 1 v).mulVec x = 0 → x = 0 := by
    intro x hx
    have hne : ∃ i : Fin n, v.get i 0 ≠ 0 := by
      by_contra h
      push Not at h
      simp [h] at h0
    obtain ⟨i, hi⟩ := hne
    have := congrFun hx i
    simp [Matrix.mulVec, dotProduct, toMat, hi] at this
    ext j
    rw [Subsingleton.elim j 0]
    exact this
  obtain ⟨u, l, hul⟩ := h1 hind
  obtain ⟨su, sl, pl, e, o⟩ := orthonormalize_mat hul hv
  have hl : 0 < l.get 0 0 := pl.2 0
  have hvu : ∀ i : Fin n, v.get i 0 = u.get i 0 * l.get 0 0 := by
    intro i
    have := congrFun (congrFun e 0) i
    simp [Matrix.mul_apply, toMat] at this
    rw [← this, mul_comm]
  have ho : ∑ i : Fin n, u.get i 0 ^ 2 = 1 := by
    have := congrFun (congrFun o 0) 0
    simpa [Matrix.mul_apply, toMat, pow_two] using this
  have hsum : ∑ i : Fin n, v.get i 0 ^ 2 = l.get 0 0 ^ 2 := by
    rw [Finset.sum_congr rfl fun i _ => by rw [hvu i, mul_pow], ← Finset.sum_mul, ho, one_mul]
  refine ⟨u, l, hul, su, fun i => ?_⟩
  rw [hsum, Real.sqrt_sq hl.le, hvu i, mul_div_assoc, div_self hl.ne', mul_one]

/-- A small problem: the operator `diag(1, 3)`, started at `(1, 1)`, tolerance `1/2`. -/
noncomputable def demoParams : LobParams ℝ where
  a := fun _ y => (ofRows 2 2 [[1, 0], [0, 3]]).dot y
  m := fun y => .ok y
  y := none
  tol := 1 / 2
  order := .largest

/-- A run of `lobpcg` that ends without convergence. -/
theorem demo_run (fuel : Nat) : ∃ b it,
    lobpcgRun (eighInto fuel) demoParams (ofRows 2 1 [[1], [1]]) 0 = .ok (.ok b, [it]) ∧
      it.pairs = b ∧ b.eigvals.get 0 = 2 ∧ b.rnorm = [1] := by
  obtain ⟨u, l, h1, s1, e1⟩ := orthonormalize_col (n := 2) (v := ofRows 2 1 [[1], [1]]) ⟨rfl, rfl⟩
    (by simp [ofRows])
  have hs : (∑ i : Fin 2, (ofRows 2 1 [[1], [1]] : Arr2 ℝ).get i 0 ^ 2) = 2 := by
    norm_num [ofRows, Fin.sum_univ_succ]
  rw [hs] at e1
  have e10 : u.get 0 0 = 1 / Real.sqrt 2 := by simpa [ofRows] using e1 0
  have e11 : u.get 1 0 = 1 / Real.sqrt 2 := by simpa [ofRows] using e1 1
  obtain ⟨ax, h2, s2⟩ := dot_shape (⟨rfl, rfl⟩ : HasShape (ofRows 2 2 [[1, 0], [0, 3]] : Arr2 ℝ) 2 2) s1
  have e20 : ax.get 0 0 = 1 / Real.sqrt 2 := by
    obtain ⟨-, rfl⟩ := Arr2.dot_inv h2
    simp [dotTo_eq, Finset.sum_range_succ, ofRows, e10]
  have e21 : ax.get 1 0 = 3 / Real.sqrt 2 := by
    obtain ⟨-, rfl⟩ := Arr2.dot_inv h2
    simp [dotTo_eq, Finset.sum_range_succ, ofRows, e11, div_eq_mul_inv]
  have h22 : Real.sqrt 2 * Real.sqrt 2 = 2 := Real.mul_self_sqrt (by norm_num)
  have h2ne : Real.sqrt 2 ≠ 0 := by positivity
  have hinv : (1 / Real.sqrt 2) * (1 / Real.sqrt 2) = 1 / 2 := by
    rw [div_mul_div_comm, h22, one_mul]
  have hμ : (∑ k : Fin 2, u.get k 0 * ax.get k 0) = 2 := by
    simp only [Fin.sum_univ_two, Fin.val_zero, Fin.val_one, e10, e11, e20, e21]
    have h3 : (3 : ℝ) / Real.sqrt 2 = 3 * (1 / Real.sqrt 2) := by ring
    rw [h3]
    linear_combination 4 * hinv
  obtain ⟨b, it, h3, h4, -, h5, -, -, h6⟩ := lobpcgRun_one (n := 2) fuel (P := demoParams)
    (x0 := ofRows 2 1 [[1], [1]]) (cholYY := none) (maxiter := 0) (by norm_num) ⟨rfl, rfl⟩
    (Or.inl ⟨rfl, rfl⟩) rfl h1 s1 h2 s2 (Or.inl rfl)
  rw [hμ] at h5 h6
  refine ⟨b, it, h3, h4, h5, ?_⟩
  rw [h6]
  have : (∑ i : Fin 2, (ax.get i 0 - 2 * u.get i 0) ^ 2) = 1 := by
    simp only [Fin.sum_univ_two, Fin.val_zero, Fin.val_one, e10, e11, e20, e21]
    have h3 : (3 : ℝ) / Real.sqrt 2 = 3 * (1 / Real.sqrt 2) := by ring
    rw [h3]
    linear_combination 2 * hinv
  rw [this, Real.sqrt_one]

/-- The residual norms of every iterate are those of its pairs. -/
theorem iterate_residual {n k : Nat} (A : Matrix (Fin n) (Fin n) ℝ) (eig : EigSolver ℝ)
    (P : LobParams ℝ) (hA : IsOperator A P) (x0 : Arr2 ℝ) (hx0 : HasShape x0 n k) (maxiter : Nat)
    (res : LobpcgResult ℝ) (hist : List (Iterate ℝ))
    (h : lobpcgRun eig P x0 maxiter = .ok (res, hist)) (it : Iterate ℝ) (hit : it ∈ hist) (j : Fin k) :
    it.pairs.rnorm[j.val]? = some (Real.sqrt (∑ i : Fin n,
      (A.mulVec (fun i => it.pairs.eigvecs.get i j) i -
        it.pairs.eigvals.get j * it.pairs.eigvecs.get i j) ^ 2)) := by
  refine lobpcgRun_iterates h (fun _ st => AInv A k st)
    (fun it => it.pairs.rnorm[j.val]? = some (Real.sqrt (∑ i : Fin n,
      (A.mulVec (fun i => it.pairs.eigvecs.get i j) i -
        it.pairs.eigvals.get j * it.pairs.eigvecs.get i j) ^ 2)))
    (fun c st hs => hs.aInv hA hx0) ?_ (fun c st st' r norms hI hh => lobHead_aInv hI hh)
    (fun c st st' r norms hI _ hr ht => lobTail_aInv hA hI hr ht) it hit
  intro c st r norms hI hr
  obtain ⟨-, -, h3, rfl, rfl⟩ := lobResidual_inv hr
  simp only
  rw [List.getElem?_map, List.getElem?_range (by rw [hI.sax.2]; exact j.2), Option.map_some,
    normL2_map_range (fun i => _), hI.sax.1]
  congr 2
  refine Finset.sum_congr rfl fun i _ => ?_
  congr 1
  have e1 := congrFun (congrFun hI.eq i) j
  simp only [toMat_apply] at e1
  rw [e1]
  congr 1
  rw [dotTo_eq, hI.sx.2, Finset.sum_eq_single j.val]
  · simp [Arr2.fromDiag, mul_comm]
  · intro k' _ hk'
    simp [Arr2.fromDiag, hk']
  · intro hj
    exact absurd (Finset.mem_range.2 j.2) hj

/-- **C44**: if the operator is multiplication by `A`, the residual norms returned are those of the
pairs returned, for every outcome after any number of iterations, every preconditioner, every
constraint, and any eigensolver for the small problems. -/
theorem C44_true_residuals {n k : Nat} (A : Matrix (Fin n) (Fin n) ℝ) (eig : EigSolver ℝ)
    (P : LobParams ℝ) (hA : IsOperator A P) (x0 : Arr2 ℝ) (hx0 : HasShape x0 n k) (maxiter : Nat)
    (res : LobpcgResult ℝ) (hist : List (Iterate ℝ))
    (h : lobpcgRun eig P x0 maxiter = .ok (res, hist)) (b : Lobpcg ℝ) (hb : Returned res b)
    (j : Fin k) :
    b.rnorm[j.val]? = some (Real.sqrt (∑ i : Fin n,
      (A.mulVec (fun i => b.eigvecs.get i j) i - b.eigvals.get j * b.eigvecs.get i j) ^ 2)) := by
  obtain ⟨⟨it, hit, rfl⟩, -⟩ := C42_best_iterate eig P x0 maxiter res hist h b hb
  exact iterate_residual A eig P hA x0 hx0 maxiter res hist h it hit j

/-- The operator of a `TruncatedEig` is multiplication by its matrix. -/
theorem TruncatedEig.isOperator {ρ : Type} {n : Nat} (t : TruncatedEig ℝ ρ)
    (ht : HasShape t.problem n n) : IsOperator (toMat n n t.problem) t.params :=
  fun _ _ _ _ hy hz => dot_mat hz ht hy

/-- C44 for the public interface: the residual norms that `TruncatedEig::decompose` returns. -/
theorem C44_truncatedEig {ρ : Type} {n num : Nat} (eig : EigSolver ℝ) (R : RandomSource ℝ ρ)
    (t t' : TruncatedEig ℝ ρ) (ht : HasShape t.problem n n) (hnum : 1 ≤ num)
    (res : LobpcgResult ℝ) (h : t.decompose eig R num = .ok (res, t')) (b : Lobpcg ℝ)
    (hb : Returned res b) (j : Fin num) :
    b.rnorm[j.val]? = some (Real.sqrt (∑ i : Fin n,
      ((toMat n n t.problem).mulVec (fun i => b.eigvecs.get i j) i -
        b.eigvals.get j * b.eigvecs.get i j) ^ 2)) := by
  unfold TruncatedEig.decompose at h
  rw [if_neg (by omega)] at h
  simp only [bind_eq_ok] at h
  obtain ⟨⟨res', hist⟩, h1, h2⟩ := h
  simp only at h2
  injection h2 with h2
  simp only [Prod.mk.injEq] at h2
  obtain ⟨rfl, -⟩ := h2
  exact C44_true_residuals (toMat n n t.problem) eig t.params (t.isOperator ht)
    (R.random t.problem.nr num t.rng).1 (k := num) ⟨by exact ht.1, rfl⟩ t.maxiter res' hist h1 b hb j

/-- A concrete case: the run `demo_run`, whose operator is `diag(1, 3)`. -/
example : IsOperator (toMat 2 2 (ofRows 2 2 [[1, 0], [0, 3]])) demoParams ∧
    ∃ b it, lobpcgRun (eighInto 0) demoParams (ofRows 2 1 [[1], [1]]) 0 = .ok (.ok b, [it]) := by
  refine ⟨fun _ _ _ _ hy hz => dot_mat hz ⟨rfl, rfl⟩ hy, ?_⟩
  obtain ⟨b, it, h, -⟩ := demo_run 0
  exact ⟨b, it, h⟩

/-- **C47** does not hold: a run that uses up all its iterations returns `Ok`, whatever the residuals
are. For every scalar type, operator and tolerance. -/
theorem C47_exhausted_is_ok {α : Type} [Zero α] [One α] [Add α] [Sub α] [Mul α] [Div α] [Neg α]
    [NdFloat α] [LawfulLe α] [LawfulLt α] (eig : EigSolver α) (P : LobParams α) (x0 : Arr2 α)
    (maxiter : Nat) (res : LobpcgResult α) (hist : List (Iterate α))
    (h : lobpcgRun eig P x0 maxiter = .ok (res, hist))
    (hfull : hist.length = 1 + min (10 * x0.nr) maxiter) : ∃ b, res = .ok b := by
  rcases lobpcgRun_hist h with ⟨e, -, rfl, rfl⟩ | ⟨_, _, st, o, b', _, _, -, hm, hend, hb', rfl, hr⟩
  · simp at hfull
    omega
  · have hi := hm.iter
    cases o with
    | none => exact ⟨b', hr⟩
    | some e => exact absurd (by omega) hend.2.1

/-- **C47**, counterexample: `lobpcg` returns `Ok` with the residual norm `1` although the tolerance is
`1/2`. -/
theorem C47_false (fuel : Nat) : ∃ (P : LobParams ℝ) (x0 : Arr2 ℝ) (maxiter : Nat) (b : Lobpcg ℝ),
    lobpcg fuel P x0 maxiter = .ok (.ok b) ∧ ∃ r ∈ b.rnorm, P.tol < r := by
  obtain ⟨b, it, h, -, -, hr⟩ := demo_run fuel
  refine ⟨demoParams, ofRows 2 1 [[1], [1]], 0, b, ?_, 1, by rw [hr]; simp, ?_⟩
  · unfold lobpcg
    rw [h]
    rfl
  · norm_num [demoParams]

/-- **C47**, what does hold: if `lobpcg` returns `Ok` and has iterations to spare, every pair reached the
tolerance at some iterate. Missing: an error when the iterations are used up (false, see
`C47_exhausted_is_ok`), and that the pairs returned are all at the tolerance at the same time. -/
theorem C47_converged_partial (eig : EigSolver ℝ) (P : LobParams ℝ) (x0 : Arr2 ℝ) (maxiter : Nat)
    (b : Lobpcg ℝ) (hist : List (Iterate ℝ)) (h : lobpcgRun eig P x0 maxiter = .ok (.ok b, hist))
    (hspare : hist.length < 1 + min (10 * x0.nr) maxiter) (p : Nat) (hp : p < x0.nc) :
    ∃ it ∈ hist, ∃ norm, it.pairs.rnorm[p]? = some norm ∧ norm ≤ P.tol := by
  obtain ⟨it, hit, norm, h1, h2⟩ := C49_converged eig P x0 maxiter b hist h hspare p hp
  refine ⟨it, hit, norm, h1, ?_⟩
  rw [real_lt, decide_eq_false_iff_not] at h2
  exact not_lt.1 h2

/-! ## Constraints -/

/-- Orthogonality to the constraints survives a change of basis by a triangular factor. -/
theorem orth_cancel {n s m : Nat} {B : Matrix (Fin s) (Fin n) ℝ} {U Z : Matrix (Fin n) (Fin m) ℝ}
    {L : Matrix (Fin m) (Fin m) ℝ} (hL : LowerPos L) (h : U * Lᵀ = Z) (hz : B * Z = 0) : B * U = 0 := by
  rw [← h, ← Matrix.mul_assoc] at hz
  have h2 := congrArg Matrix.transpose hz
  rw [Matrix.transpose_mul, Matrix.transpose_transpose, Matrix.transpose_zero] at h2
  have h3 : L * (B * U)ᵀ = L * (0 : Matrix (Fin m) (Fin s) ℝ) := by rw [h2, Matrix.mul_zero]
  have h4 := matrix_mul_left_cancel hL.isUnit h3
  exact Matrix.transpose_injective (by rw [h4, Matrix.transpose_zero])

theorem colsAt_zero {n s k b : Nat} {B : Matrix (Fin s) (Fin n) ℝ} {idx : List Nat} {q : Arr2 ℝ}
    (hidx : ∀ j ∈ idx, j < k) (hb : idx.length = b) (h : B * toMat n k q = 0) :
    B * colsAt idx q n b = 0 := by
  have h1 : toMat s k (Arr2.zeros s k : Arr2 ℝ) = B * toMat n k q := by rw [h]; rfl
  rw [← colsAt_mul hidx hb h1]
  rfl

/-- With orthonormal constraints, `apply_constraints` projects onto their orthogonal complement. -/
theorem constrain_orth {n s m : Nat} {P : LobParams ℝ} {y c v w : Arr2 ℝ} (hy : P.y = some y)
    (sy : HasShape y n s) (hY : (toMat n s y)ᵀ * toMat n s y = 1) (sc : HasShape c s s)
    (hc : toMat s s c = 1) (sv : HasShape v n m) (h : P.constrain (some c) v = .ok w) :
    (toMat n s y)ᵀ * toMat n m w = 0 := by
  unfold LobParams.constrain at h
  rw [hy] at h
  simp only at h
  have pl : LowerPos (toMat s s c) := by
    rw [hc]
    refine ⟨fun i j hij => Matrix.one_apply_ne (ne_of_lt hij), fun i => ?_⟩
    rw [Matrix.one_apply_eq]; exact one_pos
  obtain ⟨X, h1, -, h2⟩ := applyConstraints_mat h sv sy sc pl
  rw [hc, Matrix.one_mul] at h1
  rw [h2, h1, Matrix.mul_sub, ← Matrix.mul_assoc, hY, Matrix.one_mul, sub_self]

/-- The Cholesky factor of the identity. -/
theorem cholesky_one {s : Nat} {g c : Arr2 ℝ} (sg : HasShape g s s) (hg : toMat s s g = 1)
    (h : cholesky g = .ok c) : HasShape c s s ∧ toMat s s c = 1 := by
  obtain ⟨sc, pc, ec⟩ := C08_cholesky_factor g c sg (by rw [hg]; exact Matrix.isSymm_one) h
  refine ⟨sc, ?_⟩
  have p1 : LowerPos (1 : Matrix (Fin s) (Fin s) ℝ) := by
    refine ⟨fun i j hij => Matrix.one_apply_ne (ne_of_lt hij), fun i => ?_⟩
    rw [Matrix.one_apply_eq]; exact one_pos
  exact pc.unique p1 (by rw [ec, hg, Matrix.transpose_one, Matrix.mul_one])

/-- Invariant: everything is orthogonal to the constraints. -/
structure YInv {n s : Nat} (Y : Matrix (Fin n) (Fin s) ℝ) (k : Nat) (c : Option (Arr2 ℝ))
    (st : LobState ℝ) : Prop extends SInv n k st where
  chol : ∃ C, c = some C ∧ HasShape C s s ∧ toMat s s C = 1
  x0 : Yᵀ * toMat n k st.x = 0
  p0 : ∀ p ap, st.pap = some (p, ap) → Yᵀ * toMat n k p = 0

theorem StartRun.yInv {n s k : Nat} {eig : EigSolver ℝ} {P : LobParams ℝ} {y x0 : Arr2 ℝ}
    {maxiter : Nat} {c : Option (Arr2 ℝ)} {st : LobState ℝ} (hA : OpShape n P) (hx0 : HasShape x0 n k)
    (hy : P.y = some y) (sy : HasShape y n s) (hY : (toMat n s y)ᵀ * toMat n s y = 1)
    (h : StartRun eig P x0 maxiter c st) : YInv (toMat n s y) k c st := by
  have hc : ∃ C, c = some C ∧ HasShape C s s ∧ toMat s s C = 1 := by
    obtain ⟨_, _, _, _, _, _, _, _, _, -, h1, -⟩ := h.run
    rw [hy] at h1
    obtain ⟨yy, C, h2, h3, h4⟩ := h1
    obtain ⟨s2, e2⟩ := tdot_mat h2 sy sy
    obtain ⟨s3, e3⟩ := cholesky_one s2 (by rw [e2, hY]) h3
    exact ⟨C, h4, s3, e3⟩
  obtain ⟨x1, x2, ax, xax, eb, L, h1, -, s2, pL, eL, -, -, -, -, -, -, -, e1, -, hS, -, -, hp⟩ :=
    h.mat hA hx0
  obtain ⟨C, rfl, sC, eC⟩ := hc
  refine ⟨hS, ⟨C, rfl, sC, eC⟩, ?_, fun p ap h => by rw [hp] at h; cases h⟩
  have h2 := constrain_orth hy sy hY sC eC hx0 h1
  rw [e1, ← Matrix.mul_assoc, orth_cancel pL eL h2, Matrix.zero_mul]

theorem lobTail_yInv {n s k : Nat} {eig : EigSolver ℝ} {P : LobParams ℝ} {y : Arr2 ℝ}
    {c : Option (Arr2 ℝ)} {st st' : LobState ℝ} {r0 : Arr2 ℝ} {norms : List ℝ} (hA : OpShape n P)
    (hy : P.y = some y) (sy : HasShape y n s) (hY : (toMat n s y)ᵀ * toMat n s y = 1)
    (hI : YInv (toMat n s y) k c st) (hr : lobResidual st = .ok (r0, norms))
    (h : lobTail eig P c st r0 norms = .ok (.ok st')) : YInv (toMat n s y) k c st' := by
  have hS' := lobTail_sInv hA hI.toSInv hr h
  obtain ⟨C, rfl, sC, eC⟩ := hI.chol
  obtain ⟨b, w, u, r, ar, Z, Lr, eg, g, pap, pap', vecs, gram, p, ap, hb, sw, su, ⟨hu, -⟩, hZ, sr, pLr, er, -,
    sar, -, -, -, h10, h11, hvk, -, hp, sp, sap, hup, sx, sax, ex, -, -⟩ :=
    (lobTail_mat hA hI.toSInv hr h).run
  subst hb
  have hu0 := constrain_orth hy sy hY sC eC sw hu
  have hZ0 : (toMat n s y)ᵀ * Z = 0 := by
    rw [hZ, Matrix.mul_sub, hu0, ← Matrix.mul_assoc, hI.x0, Matrix.zero_mul, sub_zero]
  have hr0 := orth_cancel pLr er hZ0
  have hpap : ∀ q aq, pap' = some (q, aq) → HasShape q n (maskIndices st.mask).length ∧
      HasShape aq n (maskIndices st.mask).length ∧
      (toMat n s y)ᵀ * toMat n (maskIndices st.mask).length q = 0 := by
    intro q aq hq
    rcases lobEig_pap h11 with h' | h'
    · rw [h'] at hq; cases hq
    · subst h'
      rw [hq] at h10
      obtain ⟨q0, aq0, L, e0, hm, s1, s2, pL, e1, -, -⟩ := activePAP_mat h10 hI.pap
      refine ⟨s1, s2, orth_cancel pL e1 ?_⟩
      exact colsAt_zero (k := k) (fun j hj => hm ▸ maskIndices_lt _ j hj) rfl (hI.p0 q0 aq0 e0)
  have hp0 : (toMat n s y)ᵀ * toMat n k p = 0 := by
    obtain ⟨-, -, h'⟩ := updatePAP_mat hup sr sar hvk
      (fun q aq h' => ⟨(hpap q aq h').1, (hpap q aq h').2.1⟩)
    rcases h' with ⟨-, -, e1, -⟩ | ⟨q, aq, hq, -, -, e1, -⟩
    · rw [e1, ← Matrix.mul_assoc, hr0, Matrix.zero_mul]
    · rw [e1, Matrix.mul_add, ← Matrix.mul_assoc, hr0, Matrix.zero_mul, ← Matrix.mul_assoc,
        (hpap q aq hq).2.2, Matrix.zero_mul, add_zero]
  refine ⟨hS', ⟨C, rfl, sC, eC⟩, ?_, ?_⟩
  · rw [ex, Matrix.mul_add, hp0, ← Matrix.mul_assoc, hI.x0, Matrix.zero_mul, add_zero]
  · intro p1 ap1 h1
    rw [hp] at h1
    simp only [Option.some.injEq, Prod.mk.injEq] at h1
    obtain ⟨rfl, rfl⟩ := h1
    exact hp0

/-- **C46** for orthonormal constraints: if `YᵀY = 1`, every returned eigenvector (and every iterate) is
orthogonal to the columns of `Y`. Missing: constraints that are not orthonormal, for which the claim is
false, see `C46_false`. Any operator, preconditioner and eigensolver for the small problems. -/
theorem C46_constraints_partial {n s k : Nat} (eig : EigSolver ℝ) (P : LobParams ℝ)
    (hA : OpShape n P) (y : Arr2 ℝ) (hy : P.y = some y) (sy : HasShape y n s)
    (hY : (toMat n s y)ᵀ * toMat n s y = 1) (x0 : Arr2 ℝ) (hx0 : HasShape x0 n k) (maxiter : Nat)
    (res : LobpcgResult ℝ) (hist : List (Iterate ℝ))
    (h : lobpcgRun eig P x0 maxiter = .ok (res, hist)) :
    (∀ it ∈ hist, (toMat n s y)ᵀ * toMat n k it.pairs.eigvecs = 0) ∧
    ∀ b, Returned res b → (toMat n s y)ᵀ * toMat n k b.eigvecs = 0 := by
  have key : ∀ it ∈ hist, (toMat n s y)ᵀ * toMat n k it.pairs.eigvecs = 0 :=
    lobpcgRun_iterates h (fun c st => YInv (toMat n s y) k c st)
      (fun it => (toMat n s y)ᵀ * toMat n k it.pairs.eigvecs = 0)
      (fun c st hs => hs.yInv hA hx0 hy sy hY) (fun c st r norms hI _ => hI.x0)
      (fun c st st' r norms hI hh => by
        have := lobHead_sInv hI.toSInv hh
        obtain ⟨-, rfl⟩ := lobHead_inv hh
        exact ⟨this, hI.chol, hI.x0, hI.p0⟩)
      (fun c st st' r norms hI _ hr ht => lobTail_yInv hA hy sy hY hI hr ht)
  refine ⟨key, fun b hb => ?_⟩
  obtain ⟨⟨it, hit, rfl⟩, -⟩ := C42_best_iterate eig P x0 maxiter res hist h b hb
  exact key it hit

/-- **C46**, the exact scope of `apply_constraints`: for constraints of full rank (so that `YᵀY` has the
Cholesky factor `L` that `lobpcg` passes in), it maps every matrix into the orthogonal complement of the
constraints if and only if `YᵀY = 1`. -/
theorem C46_applyConstraints_iff {n s : Nat} (y g l : Arr2 ℝ) (sy : HasShape y n s)
    (hg : y.t.dot y = .ok g) (hl : cholesky g = .ok l) :
    (∀ m v w, HasShape v n m → applyConstraints v l y = .ok w →
      (toMat n s y)ᵀ * toMat n m w = 0) ↔ (toMat n s y)ᵀ * toMat n s y = 1 := by
  obtain ⟨sg, eg⟩ := tdot_mat hg sy sy
  obtain ⟨sl, pl, el⟩ := C08_cholesky_factor g l sg (by rw [eg]; exact gram_isSymm _) hl
  constructor
  · intro h
    obtain ⟨w, hw, sw⟩ := applyConstraints_shape sy sl sy
    obtain ⟨X, e1, -, e2⟩ := applyConstraints_mat hw sy sy sl pl
    have hX : X = (toMat s s l)ᵀ := by
      apply matrix_mul_left_cancel pl.isUnit
      rw [e1, el, eg]
    have h1 := h s y w sy hw
    rw [e2, hX, Matrix.mul_sub, ← Matrix.mul_assoc, ← eg, ← el, sub_eq_zero] at h1
    have h2 : toMat s s l * (toMat s s l)ᵀ * 1 =
        toMat s s l * (toMat s s l)ᵀ * (toMat s s l)ᵀ := by rw [Matrix.mul_one]; exact h1
    have hu : IsUnit (toMat s s l * (toMat s s l)ᵀ) :=
      pl.isUnit.mul ((Matrix.isUnit_transpose _).2 pl.isUnit)
    have h3 := matrix_mul_left_cancel hu h2
    rw [← eg, ← el, ← h3, Matrix.mul_one]
    rw [← Matrix.transpose_transpose (toMat s s l), ← h3, Matrix.transpose_one]
  · intro hY m v w sv hw
    obtain ⟨sc, ec⟩ := cholesky_one sg (by rw [eg, hY]) hl
    obtain ⟨X, h1, -, h2⟩ := applyConstraints_mat hw sv sy sc pl
    rw [ec, Matrix.one_mul] at h1
    rw [h2, h1, Matrix.mul_sub, ← Matrix.mul_assoc, hY, Matrix.one_mul, sub_self]

/-- The identity operator with the constraint `2 e₁`. -/
noncomputable def constrainedParams : LobParams ℝ where
  a := fun _ y => .ok y
  m := fun y => .ok y
  y := some (ofRows 2 1 [[2], [0]])
  tol := 1
  order := .largest

/-- **C46**, counterexample: the identity on ℝ² with the single constraint `2 e₁`, started at `(1, 1)`.
`lobpcg` returns `Ok` (the residual is zero) with an eigenvector that is not orthogonal to `e₁`. -/
theorem C46_false (fuel : Nat) (maxiter : Nat) : ∃ (P : LobParams ℝ) (y x0 : Arr2 ℝ) (b : Lobpcg ℝ),
    P.y = some y ∧ HasShape y 2 1 ∧ LinearIndependent ℝ (toMat 2 1 y).col ∧ HasShape x0 2 1 ∧
    lobpcg fuel P x0 maxiter = .ok (.ok b) ∧ b.rnorm = [0] ∧
    (toMat 2 1 y)ᵀ * toMat 2 1 b.eigvecs ≠ 0 := by
  have sy : HasShape (ofRows 2 1 [[2], [0]] : Arr2 ℝ) 2 1 := ⟨rfl, rfl⟩
  have sx : HasShape (ofRows 2 1 [[1], [1]] : Arr2 ℝ) 2 1 := ⟨rfl, rfl⟩
  have hind : LinearIndependent ℝ (toMat 2 1 (ofRows 2 1 [[2], [0]])).col := by
    rw [← Matrix.mulVec_injective_iff]
    intro x y h
    have := congrFun h 0
    simp [Matrix.mulVec, dotProduct, toMat, ofRows] at this
    ext i
    fin_cases i
    exact this
  obtain ⟨g, hg, sg⟩ := dot_shape (shape_t sy) sy
  have eg : g.get 0 0 = 4 := by
    obtain ⟨-, rfl⟩ := Arr2.dot_inv hg
    norm_num [dotTo_eq, Finset.sum_range_succ, ofRows, Arr2.t]
  have hsym : (toMat 1 1 g).IsSymm := by
    ext i j
    rw [Matrix.transpose_apply, Subsingleton.elim i j]
  obtain ⟨c, hc⟩ := (C09_cholesky_iff_posDef g sg hsym).1.2 (by
    refine ⟨hsym, fun x hx => ?_⟩
    have hx0 : x 0 ≠ 0 := by
      intro h0
      apply hx
      ext i
      rw [Subsingleton.elim i 0]
      exact h0
    simp only [dotProduct, Matrix.mulVec, Fin.sum_univ_one, toMat_apply, Fin.val_zero, eg]
    have := mul_self_pos.2 hx0
    nlinarith)
  obtain ⟨sc, pc, ec⟩ := C08_cholesky_factor g c sg hsym hc
  have ec0 : c.get 0 0 = 2 := by
    have h1 := congrFun (congrFun ec 0) 0
    simp [Matrix.mul_apply, toMat, eg] at h1
    have h2 : 0 < c.get 0 0 := pc.2 0
    nlinarith
  obtain ⟨x1, h1, s1⟩ := applyConstraints_shape sx sc sy
  obtain ⟨X, e1, -, e2⟩ := applyConstraints_mat h1 sx sy sc pc
  have eX : X 0 0 = 1 := by
    have := congrFun (congrFun e1 0) 0
    simp [Matrix.mul_apply, toMat, ec0, ofRows, Fin.sum_univ_succ] at this
    linarith
  have x10 : x1.get 0 0 = -1 := by
    have := congrFun (congrFun e2 0) 0
    simp [Matrix.mul_apply, toMat, ofRows, eX] at this
    linarith
  have x11 : x1.get 1 0 = 1 := by
    have := congrFun (congrFun e2 1) 0
    simpa [Matrix.mul_apply, toMat, ofRows, eX] using this
  have hs : (∑ i : Fin 2, x1.get i 0 ^ 2) = 2 := by
    norm_num [Fin.sum_univ_two, x10, x11]
  obtain ⟨x2, l, h2, s2, e2'⟩ := orthonormalize_col s1 (by rw [hs]; norm_num)
  rw [hs] at e2'
  have e20 : x2.get 0 0 = -1 / Real.sqrt 2 := by simpa [x10] using e2' 0
  have e21 : x2.get 1 0 = 1 / Real.sqrt 2 := by simpa [x11] using e2' 1
  have h22 : Real.sqrt 2 * Real.sqrt 2 = 2 := Real.mul_self_sqrt (by norm_num)
  have hμ : (∑ k : Fin 2, x2.get k 0 * x2.get k 0) = 1 := by
    simp only [Fin.sum_univ_two, Fin.val_zero, Fin.val_one, e20, e21]
    rw [div_mul_div_comm, div_mul_div_comm, h22]
    norm_num
  have hρ : Real.sqrt (∑ i : Fin 2, (x2.get i 0 -
      (∑ k : Fin 2, x2.get k 0 * x2.get k 0) * x2.get i 0) ^ 2) = 0 := by
    rw [hμ]; simp
  obtain ⟨b, it, h3, -, -, -, sb, hb, hrn⟩ := lobpcgRun_one (n := 2) fuel (P := constrainedParams)
    (x0 := ofRows 2 1 [[1], [1]]) (cholYY := some c) (maxiter := maxiter) (by norm_num) sx
    (Or.inr ⟨_, g, c, rfl, hg, hc, rfl⟩) (by exact h1) h2 s2 rfl s2
    (Or.inr (by rw [hρ]; exact zero_le_one))
  refine ⟨constrainedParams, ofRows 2 1 [[2], [0]], ofRows 2 1 [[1], [1]], b, rfl, sy, hind, sx, ?_,
    by rw [hrn, hρ], ?_⟩
  · unfold lobpcg
    rw [h3]
    rfl
  · intro h0
    have h1 := congrFun (congrFun h0 0) 0
    have hb0 := hb 0
    simp [Matrix.mul_apply, toMat, ofRows, Fin.sum_univ_succ, e20] at h1 hb0
    rw [hb0] at h1
    have : Real.sqrt 2 ≠ 0 := by positivity
    simp [this] at h1

/-! ## Absence of panics -/

/-- **C56**: in exact arithmetic `lobpcg` never panics, if there is at least one column, the closures
return matrices of the shape of their argument, and the constraints (if any) have full rank. The only
failure of the model is the fuel of the eigensolver for the small problems, see C30. -/
theorem C56_no_panic {n k : Nat} (fuel : Nat) (P : LobParams ℝ) (x0 : Arr2 ℝ) (hx0 : HasShape x0 n k)
    (hk : 1 ≤ k) (ha : ∀ call y k, HasShape y n k → ∃ z, P.a call y = .ok z ∧ HasShape z n k)
    (hm : ∀ y k, HasShape y n k → ∃ z, P.m y = .ok z ∧ HasShape z n k)
    (hy : ∀ y, P.y = some y → y.nr = n ∧ LinearIndependent ℝ (toMat n y.nc y).col) (maxiter : Nat) :
    (∃ res hist, lobpcgRun (eighInto fuel) P x0 maxiter = .ok (res, hist)) ∨
      lobpcgRun (eighInto fuel) P x0 maxiter = .error .fuel := by
  have := lobpcgRun_total (eighInto_total fuel) ⟨ha, hm⟩ hx0 hk (fun y hyy => ?_) maxiter
  · rcases hr : lobpcgRun (eighInto fuel) P x0 maxiter with e | ⟨res, hist⟩
    · rw [hr] at this
      right
      exact congrArg Except.error this
    · exact Or.inl ⟨res, hist, rfl⟩
  · obtain ⟨h1, h2⟩ := hy y hyy
    refine ⟨h1, fun g hg => ?_⟩
    have sy : HasShape y n y.nc := ⟨h1, rfl⟩
    obtain ⟨u, l, hul, -⟩ := (C50_orthonormalize y sy).1 h2
    obtain ⟨g', _, e1, e2, -⟩ := orthonormalize_inv hul
    rw [hg] at e1
    injection e1 with e1
    subst e1
    exact ⟨_, e2⟩

/-- The hypothesis on the number of columns is needed: with an empty block, `vecs.row(0)` in
`sorted_eig` panics. For every scalar type, operator and eigensolver that accepts empty matrices. -/
theorem C56_zero_columns_panics {α : Type} [Zero α] [One α] [Add α] [Sub α] [Mul α] [Div α] [Neg α]
    [NdFloat α] [LawfulLe α] {n : Nat} (fuel : Nat) (P : LobParams α) (x0 : Arr2 α)
    (hx0 : HasShape x0 n 0) (hy : P.y = none)
    (ha : ∀ call y k, HasShape y n k → ∃ z, P.a call y = .ok z ∧ HasShape z n k) (maxiter : Nat) :
    lobpcg fuel P x0 maxiter = .error .panic := by
  have h1 : ∃ u l, orthonormalize x0 = .ok (u, l) ∧ HasShape u n 0 := by
    obtain ⟨g, hg, sg⟩ := dot_shape (shape_t hx0) hx0
    rcases cholesky_cases g (sg.1.trans sg.2.symm) with ⟨l, hl, -⟩ | ⟨-, -, _, j, hj, -⟩
    · rcases orthonormalize_shape hx0 with ⟨⟨u, l'⟩, h, s, -⟩ | ⟨e, h⟩
      · exact ⟨u, l', h, s⟩
      · unfold orthonormalize at h
        rw [hg, ok_bind, hl, ok_bind] at h
        have sl : HasShape (cleanLower l) 0 0 := by
          rcases cholesky_shape sg with ⟨l', hl', sl⟩ | hl'
          · rw [hl] at hl'
            injection hl' with hl'
            rw [hl']; exact sl
          · rw [hl] at hl'; cases hl'
        obtain ⟨z, hz, -⟩ := solve_shape sl (shape_t hx0) .lower
        rw [hz, ok_bind] at h
        cases h
    · rw [sg.1] at hj; omega
  obtain ⟨u, l, hu, su⟩ := h1
  obtain ⟨ax, hax, sax⟩ := ha 0 u 0 su
  have hax' : P.apply 0 u = .ok ax := by unfold LobParams.apply; rw [hax]; rfl
  obtain ⟨xax, hxax, sxax⟩ := dot_shape (shape_t su) sax
  have hs : sortedEig (eighInto fuel) xax none x0.nc P.order = .error .panic := by
    unfold sortedEig
    have h2 := (C31_eigh_shapes fuel xax).2.1 (sxax.1.trans sxax.2.symm) sxax.1
    unfold eigh at h2
    simp only
    rw [h2, ok_bind]
    obtain ⟨ov, oq, σ, h3, -, -, h4, -⟩ := C33_sort_eig (Arr1.zeros 0 : Arr1 α) (Arr2.zeros 0 0) 0
      ⟨rfl, rfl⟩ (fun i hi => by simp [Arr1.zeros] at hi) P.order
    simp only
    rw [h3, ok_bind]
    simp only
    rw [if_pos h4.1]
  unfold lobpcg lobpcgRun
  simp only
  rw [if_neg (by rw [hx0.2]; omega), hy]
  simp only [ok_bind]
  unfold LobParams.constrain
  rw [hy]
  simp only [ok_bind]
  rw [hu]
  simp only [catchM, ok_bind]
  rw [hax', ok_bind, hxax, ok_bind, hs]
  rfl

/-- A concrete case: `demoParams` and a start vector meet the hypotheses of `C56_no_panic`. -/
example (fuel maxiter : Nat) :
    (∃ res hist, lobpcgRun (eighInto fuel) demoParams (ofRows 2 1 [[1], [1]]) maxiter = .ok (res, hist)) ∨
      lobpcgRun (eighInto fuel) demoParams (ofRows 2 1 [[1], [1]]) maxiter = .error .fuel :=
  C56_no_panic fuel demoParams _ (n := 2) (k := 1) ⟨rfl, rfl⟩ le_rfl
    (fun _ _ _ hy => dot_shape ⟨rfl, rfl⟩ hy) (fun y _ hy => ⟨y, rfl, hy⟩)
    (fun y hy => by cases hy) maxiter

end LinfaLinalg
