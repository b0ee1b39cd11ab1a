import Verif.Proofs.Constructible
import Verif.Props.Closed
import Verif.Props.Accuracy
import Verif.Props.LobpcgReal
import Mathlib.RingTheory.Polynomial.Eisenstein.Basic
import Mathlib.RingTheory.Polynomial.GaussLemma
import Mathlib.LinearAlgebra.Matrix.ToLinearEquiv
import Mathlib.RingTheory.Int.Basic

/-! # What exact arithmetic cannot return

The library computes with field operations and square roots. In exact arithmetic, whatever it returns for rational
input is a constructible number, so it never returns an eigenvalue or a singular value of another kind exactly: the
tolerances in the other theorems cannot be zero. -/

set_option linter.unusedSectionVars false

namespace LinfaLinalg
open Par Matrix Polynomial

instance : ScalarRel (EqIn Constructible) := closed_constructible.scalarRel

/-- Whatever is returned has the property. -/
def Returns {A : Type} (S : A → Prop) (p : M A) : Prop := ∀ x, p = .ok x → S x

theorem returns_of_rel {A : Type} {S : A → A → Prop} {T : A → Prop} {p q : M A} (h : RelM S p q)
    (hST : ∀ x y, S x y → T x) : Returns T p := returnsIn_of_rel h hST

/-- **C112.** If the entries of the matrices are constructible, for instance rational, so are those of the results of
the direct methods. -/
theorem C112_direct {a b : Arr2 ℝ} (ha : All2 Constructible a) (hb : All2 Constructible b) (uplo : UPLO) :
    Returns (All2 Constructible) (solveTriangular a b uplo) ∧
    Returns (All2 Constructible) (cholesky a) ∧
    Returns (All2 Constructible) (solvec a b) ∧
    Returns (All2 Constructible) (invc a) ∧
    Returns (fun p => All2 Constructible p.1 ∧ All2 Constructible p.2) (do (← qrInto a).intoDecomp) ∧
    Returns (All2 Constructible) (do (← qrInto a).solveTrInto b) ∧
    Returns (All2 Constructible) (do (← qrInto a).inverse) ∧
    Returns (All2 Constructible) (leastSquares a b) := by
  have ha' := relA2_of_all ha
  have hb' := relA2_of_all hb
  have hq := rel_qrInto ha'
  exact ⟨returns_of_rel (rel_solveTriangular ha' hb' (rfl : uplo = uplo)) fun _ _ h => h.all,
    returns_of_rel (rel_cholesky ha') fun _ _ h => h.all,
    returns_of_rel (rel_solvec ha' hb') fun _ _ h => h.all,
    returns_of_rel (rel_invc ha') fun _ _ h => h.all,
    returns_of_rel (relM_bind hq fun _ _ h => rel_intoDecomp h) fun _ _ h => ⟨h.1.all, h.2.all⟩,
    returns_of_rel (relM_bind hq fun _ _ h => rel_solveTrInto h hb') fun _ _ h => h.all,
    returns_of_rel (relM_bind hq fun _ _ h => rel_inverse h) fun _ _ h => h.all,
    returns_of_rel (rel_leastSquares ha' hb') fun _ _ h => h.all⟩

/-- **C112.** The same for the eigenvalue and singular value methods. -/
theorem C112_spectral {a : Arr2 ℝ} (ha : All2 Constructible a) (fuel : Nat) (cu cv : Bool) :
    Returns (fun p => All1 Constructible p.1 ∧ All2 Constructible p.2) (eigh fuel a) ∧
    Returns (All1 Constructible) (eigvalsh fuel a) ∧
    Returns (fun p => (∀ u, p.1 = some u → All2 Constructible u) ∧ All1 Constructible p.2.1 ∧
      ∀ v, p.2.2 = some v → All2 Constructible v) (svd fuel a cu cv) := by
  have ha' := relA2_of_all ha
  exact ⟨returns_of_rel (rel_eigh (rfl : fuel = fuel) ha') fun _ _ h => ⟨h.1.all, h.2.all⟩,
    returns_of_rel (rel_eigvalsh (rfl : fuel = fuel) ha') fun _ _ h => h.all,
    returns_of_rel (rel_svd (rfl : fuel = fuel) ha' (rfl : cu = cu) (rfl : cv = cv)) fun _ _ h =>
      ⟨fun u hu => by obtain ⟨y, -, hy⟩ := RelO.of_some h.1 hu; exact hy.all, h.2.1.all,
        fun v hv => by obtain ⟨y, -, hy⟩ := RelO.of_some h.2.2 hv; exact hy.all⟩⟩

/-- **C112.** The same for LOBPCG with the library's own eigensolver, if the operator and the preconditioner lead from
constructible to constructible numbers. -/
theorem C112_lobpcg {P : LobParams ℝ} (hA : ∀ k x, All2 Constructible x → Returns (All2 Constructible) (P.a k x))
    (hM : ∀ x, All2 Constructible x → Returns (All2 Constructible) (P.m x))
    (hAe : ∀ k x y, SameArr x y → SameRun SameArr (P.a k x) (P.a k y))
    (hMe : ∀ x y, SameArr x y → SameRun SameArr (P.m x) (P.m y))
    (hY : ∀ y, P.y = some y → All2 Constructible y) (ht : Constructible P.tol) {x : Arr2 ℝ} (hx : All2 Constructible x)
    (fuel maxiter : Nat) :
    Returns (fun r => ∀ l, LobpcgResult.result r = some l → All1 Constructible l.eigvals ∧ All2 Constructible l.eigvecs)
      (lobpcg fuel P x maxiter) := by
  have key : ∀ {f : Arr2 ℝ → M (Arr2 ℝ)}, (∀ x, All2 Constructible x → Returns (All2 Constructible) (f x)) →
      (∀ x y, SameArr x y → SameRun SameArr (f x) (f y)) → ∀ x y, RelA2 (EqIn Constructible) x y →
      RelM (RelA2 (EqIn Constructible)) (f x) (f y) := by
    intro f h1 h2 x y h
    have hs : SameArr x y := ⟨h.nr, h.nc, fun i j hi hj => (h.get i hi j hj).1⟩
    have h3 := h1 x h.all
    obtain ⟨h4, h5⟩ := h2 x y hs
    cases hf : f x with
    | error e => rw [h5 e hf]; rfl
    | ok z =>
      obtain ⟨w, hw, hzw⟩ := h4 z hf
      rw [hw]
      exact ⟨hzw.1, hzw.2.1, fun i hi j hj => ⟨hzw.2.2 i j hi hj, h3 z hf i hi j hj⟩⟩
  have hP : RelLobParams (EqIn Constructible) P P :=
    ⟨fun k => key (hA k) (hAe k), key hM hMe, by
      cases hy : P.y with
      | none => trivial
      | some y => exact relA2_of_all (hY y hy), ⟨rfl, ht⟩, rfl⟩
  refine returns_of_rel (rel_lobpcg fuel hP (relA2_of_all hx) maxiter) fun r r' h l hl => ?_
  obtain ⟨l', -, h⟩ := RelO.of_some (rel_lobpcgResult h) hl
  exact ⟨h.eigvals.all, h.eigvecs.all⟩

/-- **C112.** The same for the truncated decompositions from a random start block of constructible, for instance
rational numbers. -/
theorem C112_truncated {ρ : Type} [MagnitudeCorrection ℝ] (hm : Constructible MagnitudeCorrection.correction)
    {g : RandomSource ℝ ρ} (hg : ∀ r c st, ∀ i, i < r → ∀ j, j < c → Constructible ((g.gen r c st).1 i j))
    {a : Arr2 ℝ} (ha : All2 Constructible a) (order : Order) (st : ρ) (fuel num : Nat) :
    Returns (fun p => ∀ l, LobpcgResult.result p.1 = some l → All1 Constructible l.eigvals ∧ All2 Constructible l.eigvecs)
      ((TruncatedEig.new a order st).decompose (eighInto fuel) g num) ∧
    Returns (All1 Constructible) (do (← (TruncatedSvd.new a order st).decompose (eighInto fuel) g num).values) ∧
    Returns (fun p => All2 Constructible p.1 ∧ All1 Constructible p.2.1 ∧ All2 Constructible p.2.2)
      (do (← (TruncatedSvd.new a order st).decompose (eighInto fuel) g num).valuesVectors) := by
  have hg : RelSource (EqIn Constructible) g g := fun r c st => ⟨fun i hi j hj => ⟨rfl, hg r c st i hi j hj⟩, rfl⟩
  have hm : RelCorrection (EqIn Constructible) := ⟨rfl, hm⟩
  have ha' := relA2_of_all ha
  have hs := rel_decomposeSvd (relSolver_eighInto fuel) hg (relTruncatedSvd_new ha' order st) num
  exact ⟨returns_of_rel (rel_decompose (relSolver_eighInto fuel) hg (relTruncatedEig_new ha' order st) num)
      fun _ _ h l hl => by
        obtain ⟨l', -, h⟩ := RelO.of_some (rel_lobpcgResult h.1) hl
        exact ⟨h.eigvals.all, h.eigvecs.all⟩,
    returns_of_rel (relM_bind hs fun _ _ h => rel_values hm h) fun _ _ h => h.all,
    returns_of_rel (relM_bind hs fun _ _ h => rel_valuesVectors hm h) fun _ _ h => ⟨h.1.all, h.2.1.all, h.2.2.all⟩⟩

/-- **C112.** A constructible number is not a root of an irreducible rational polynomial unless the degree is a power
of two. -/
theorem C112_degree {x : ℝ} (h : Constructible x) {p : ℚ[X]} (hp : Irreducible p) (hx : aeval x p = 0) :
    ∃ k, p.natDegree = 2 ^ k := by
  obtain ⟨-, k, hk⟩ := h.natDegree
  refine ⟨k, ?_⟩
  rw [← hk, ← minpoly.eq_of_irreducible hp hx, natDegree_mul_C]
  exact inv_ne_zero (leadingCoeff_ne_zero.2 hp.ne_zero)

/-- A rational matrix whose eigenvalues are not constructible. -/
structure Unreachable {n : Nat} (A : Matrix (Fin n) (Fin n) ℚ) : Prop where
  irr : Irreducible A.charpoly
  dim : ∀ k, n ≠ 2 ^ k

theorem Unreachable.root {n : Nat} {A : Matrix (Fin n) (Fin n) ℚ} (h : Unreachable A) {x : ℝ} (hx : Constructible x) :
    ¬ (A.map (algebraMap ℚ ℝ)).charpoly.IsRoot x := by
  intro hr
  rw [Matrix.charpoly_map, IsRoot.def, eval_map_algebraMap] at hr
  obtain ⟨k, hk⟩ := C112_degree hx h.irr hr
  rw [Matrix.charpoly_natDegree_eq_dim, Fintype.card_fin] at hk
  exact h.dim k hk

theorem Unreachable.vector {n : Nat} {A : Matrix (Fin n) (Fin n) ℚ} (h : Unreachable A) {v : Fin n → ℝ}
    (hv : ∀ i, Constructible (v i)) (h0 : v ≠ 0) (μ : ℝ) : A.map (algebraMap ℚ ℝ) *ᵥ v ≠ μ • v := by
  intro he
  obtain ⟨i, hi⟩ := Function.ne_iff.1 h0
  have hi : v i ≠ 0 := hi
  have hc : Constructible μ := by
    have : μ = (A.map (algebraMap ℚ ℝ) *ᵥ v) i / v i := by
      rw [he, Pi.smul_apply, smul_eq_mul, mul_div_cancel_right₀ _ hi]
    rw [this]
    have hs : Constructible (∑ j, (A i j : ℝ) * v j) :=
      Constructible.sum _ fun j _ => (Constructible.rat (A i j)).mul (hv j)
    exact Constructible.div hs (hv i)
  refine h.root hc ?_
  rw [IsRoot.def, Matrix.eval_charpoly, ← Matrix.exists_mulVec_eq_zero_iff]
  refine ⟨v, h0, ?_⟩
  rw [Matrix.sub_mulVec, he, Matrix.scalar_apply, Matrix.diagonal_const_mulVec, sub_self]

/-- The entries of a rational matrix. -/
theorem all2_of_rat {m n : Nat} {a : Arr2 ℝ} (ha : HasShape a m n) {A : Matrix (Fin m) (Fin n) ℚ}
    (hA : toMat m n a = A.map (algebraMap ℚ ℝ)) : All2 Constructible a := by
  intro i hi j hj
  rw [ha.1] at hi
  rw [ha.2] at hj
  have := congrFun (congrFun hA ⟨i, hi⟩) ⟨j, hj⟩
  simp only [toMat_apply, Matrix.map_apply, eq_ratCast] at this
  rw [this]
  exact .rat _

/-- **C112.** For a rational symmetric matrix with irreducible characteristic polynomial whose size is not a power of
two, no value that `eigvalsh` or `eigh` returns is an eigenvalue, and no vector that `eigh` returns is an eigenvector,
after however many iterations. -/
theorem C112_eigh_inexact {n : Nat} {a : Arr2 ℝ} (ha : HasShape a n n) {A : Matrix (Fin n) (Fin n) ℚ}
    (hA : toMat n n a = A.map (algebraMap ℚ ℝ)) (hu : Unreachable A) (fuel : Nat) :
    (∀ vals, eigvalsh fuel a = .ok vals → ∀ i, i < vals.len → ¬ (toMat n n a).charpoly.IsRoot (vals.get i)) ∧
    ∀ vals q, eigh fuel a = .ok (vals, q) →
      (∀ i, i < vals.len → ¬ (toMat n n a).charpoly.IsRoot (vals.get i)) ∧
      ∀ j, j < q.nc → (fun i : Fin n => q.get i j) ≠ 0 → ∀ μ : ℝ,
        toMat n n a *ᵥ (fun i => q.get i j) ≠ μ • fun i : Fin n => q.get i j := by
  have hc := all2_of_rat ha hA
  obtain ⟨h1, h2, -⟩ := C112_spectral hc fuel false false
  rw [hA]
  refine ⟨fun vals hv i hi => hu.root (h2 _ hv i hi), fun vals q hv => ⟨fun i hi => hu.root ((h1 _ hv).1 i hi), ?_⟩⟩
  intro j hj h0 μ
  have hs := (C31_eigh_shapes fuel a).2.2 (by rw [ha.1, ha.2])
  rw [hv] at hs
  refine hu.vector (fun i => ?_) h0 μ
  exact (h1 _ hv).2 i (by rw [hs.2.1, ha.1]; exact i.2) j hj

/-- **C112.** For a rational symmetric matrix of this kind, no vector that the truncated eigenvalue decomposition
returns is an eigenvector and no value is an eigenvalue, whatever the rational start block, the settings and the number
of pairs. -/
theorem C112_truncated_inexact {ρ : Type} {n : Nat} {t : TruncatedEig ℝ ρ} (ha : HasShape t.problem n n)
    {A : Matrix (Fin n) (Fin n) ℚ} (hA : toMat n n t.problem = A.map (algebraMap ℚ ℝ)) (hu : Unreachable A)
    (ht : Constructible t.precision) (hy : ∀ y, t.constraints = some y → All2 Constructible y)
    (hp : ∀ y, t.preconditioner = some y → All2 Constructible y)
    {g : RandomSource ℝ ρ} (hg : ∀ r c st, ∀ i, i < r → ∀ j, j < c → ∃ q : ℚ, (g.gen r c st).1 i j = q)
    (fuel num : Nat) :
    ∀ res t', t.decompose (eighInto fuel) g num = .ok (res, t') → ∀ l, LobpcgResult.result res = some l →
      (∀ i, i < l.eigvals.len → ¬ (toMat n n t.problem).charpoly.IsRoot (l.eigvals.get i)) ∧
      ∀ j, j < l.eigvecs.nc → (fun i : Fin n => l.eigvecs.get i j) ≠ 0 → ∀ μ : ℝ,
        toMat n n t.problem *ᵥ (fun i => l.eigvecs.get i j) ≠ μ • fun i : Fin n => l.eigvecs.get i j := by
  intro res t' he l hl
  have hg : RelSource (EqIn Constructible) g g := fun r c st => ⟨fun i hi j hj => ⟨rfl, by
    obtain ⟨q, hq⟩ := hg r c st i hi j hj
    rw [hq]
    exact .rat q⟩, rfl⟩
  have ho : ∀ {o : Option (Arr2 ℝ)}, (∀ y, o = some y → All2 Constructible y) → RelO (RelA2 (EqIn Constructible)) o o := by
    intro o h
    cases o with
    | none => trivial
    | some y => exact relA2_of_all (h y rfl)
  have hr := rel_decompose (relSolver_eighInto fuel) hg (t := t) (t' := t)
    ⟨rfl, relA2_of_all (all2_of_rat ha hA), ho hy, ho hp, ⟨rfl, ht⟩, rfl, rfl⟩ num
  rw [he] at hr
  obtain ⟨l', -, h⟩ := RelO.of_some (rel_lobpcgResult hr.1) hl
  have h2 := h.eigvals.all
  have h3 := h.eigvecs.all
  rw [hA]
  refine ⟨fun i hi => hu.root (h2 i hi), fun j hj h0 μ => hu.vector (fun i => ?_) h0 μ⟩
  refine h3 i ?_ j hj
  unfold TruncatedEig.decompose at he
  split at he
  · cases he
    obtain rfl : _ = l := Option.some.inj hl
    exact absurd hj (Nat.not_lt_zero j)
  · simp only [bind_eq_ok] at he
    obtain ⟨⟨res', hist⟩, h4, h5⟩ := he
    cases h5
    have hl : LobpcgResult.result res' = some l := hl
    have hret : Returned res' l := by
      clear hr h4
      rcases res' with ⟨e, o⟩ | b
      · exact .inr ⟨e, by rw [show o = some l from hl]⟩
      · exact .inl (by rw [show b = l from Option.some.inj hl])
    rw [(C48_shapes _ _ _ _ _ _ h4 l hret).2.1]
    show (i : Nat) < t.problem.nr
    rw [ha.1]
    exact i.2

/-- **C112.** For a rational matrix `A` such that `Aᵀ A` (or `A Aᵀ`) is of this kind, no value that `svd` returns is a
singular value, after however many iterations. -/
theorem C112_svd_inexact {m n : Nat} {a : Arr2 ℝ} (ha : HasShape a m n) {A : Matrix (Fin m) (Fin n) ℚ}
    (hA : toMat m n a = A.map (algebraMap ℚ ℝ)) (fuel : Nat) (cu cv : Bool) :
    ∀ u s vt, svd fuel a cu cv = .ok (u, s, vt) →
      (Unreachable (Aᵀ * A) → ∀ i, i < s.len → ¬ ((toMat m n a)ᵀ * toMat m n a).charpoly.IsRoot (s.get i ^ 2)) ∧
      (Unreachable (A * Aᵀ) → ∀ i, i < s.len → ¬ (toMat m n a * (toMat m n a)ᵀ).charpoly.IsRoot (s.get i ^ 2)) := by
  intro u s vt hv
  obtain ⟨-, -, h⟩ := C112_spectral (all2_of_rat ha hA) fuel cu cv
  have hs := (h _ hv).2.1
  have hsq : ∀ i, i < s.len → Constructible (s.get i ^ 2) := fun i hi => by
    rw [sq]
    exact (hs i hi).mul (hs i hi)
  rw [hA]
  constructor
  · intro hu i hi
    have := hu.root (hsq i hi)
    rwa [Matrix.map_mul, Matrix.transpose_map] at this
  · intro hu i hi
    have := hu.root (hsq i hi)
    rwa [Matrix.map_mul, Matrix.transpose_map] at this

/-! ## A matrix of this kind -/

/-- A symmetric positive definite matrix with the characteristic polynomial `X³ - 8 X² + 18 X - 10`. -/
def exCubic : Matrix (Fin 3) (Fin 3) ℚ := !![4, 1, 0; 1, 2, 1; 0, 1, 2]

theorem exCubic_charpoly : exCubic.charpoly = (X ^ 3 - C 8 * X ^ 2 + C 18 * X - C 10 : ℤ[X]).map (Int.castRingHom ℚ) := by
  rw [Matrix.charpoly, Matrix.det_fin_three]
  have e2 : (C 2 : ℚ[X]) = 2 := map_ofNat C 2
  have e4 : (C 4 : ℚ[X]) = 4 := map_ofNat C 4
  simp [exCubic, Matrix.charmatrix, e2, e4]
  ring

theorem exCubic_unreachable : Unreachable exCubic := by
  have hd : (X ^ 3 - C 8 * X ^ 2 + C 18 * X - C 10 : ℤ[X]).natDegree = 3 := by compute_degree!
  have hm : (X ^ 3 - C 8 * X ^ 2 + C 18 * X - C 10 : ℤ[X]).Monic := by
    rw [Monic, leadingCoeff, hd]
    simp [coeff_X]
  refine ⟨?_, fun k hk => ?_⟩
  · rw [exCubic_charpoly, ← IsPrimitive.Int.irreducible_iff_irreducible_map_cast hm.isPrimitive]
    refine IsEisensteinAt.irreducible (𝓟 := Ideal.span {2}) ⟨?_, ?_, ?_⟩ ?_ hm.isPrimitive (by rw [hd]; norm_num)
    · rw [hm.leadingCoeff, Ideal.mem_span_singleton]; norm_num
    · intro k hk
      rw [hd] at hk
      rw [Ideal.mem_span_singleton]
      interval_cases k <;> simp [coeff_X, coeff_X_pow]
    · rw [Ideal.span_singleton_pow, Ideal.mem_span_singleton]
      simp
    · exact (Ideal.span_singleton_prime (by norm_num)).2 (Nat.prime_iff_prime_int.1 Nat.prime_two)
  · rcases k with - | - | k
    · norm_num at hk
    · norm_num at hk
    · have : 2 ^ (k + 1 + 1) = 4 * 2 ^ k := by ring
      omega

/-- The same matrix as an array. -/
def exCubicArr : Arr2 ℝ := ofRows 3 3 [[4, 1, 0], [1, 2, 1], [0, 1, 2]]

/-- `eigvalsh` returns on it, and none of the three values is exact. -/
example : ∃ N vals, (∀ fuel, N ≤ fuel → eigvalsh fuel exCubicArr = .ok vals) ∧ vals.len = 3 ∧
    ∀ i, i < 3 → ¬ (toMat 3 3 exCubicArr).charpoly.IsRoot (vals.get i) := by
  have ha : HasShape exCubicArr 3 3 := ⟨rfl, rfl⟩
  have hA : toMat 3 3 exCubicArr = exCubic.map (algebraMap ℚ ℝ) := by
    ext i j
    fin_cases i <;> fin_cases j <;> simp [exCubicArr, exCubic, ofRows]
  have hs : (toMat 3 3 exCubicArr).IsSymm := by
    rw [hA]
    ext i j
    fin_cases i <;> fin_cases j <;> simp [exCubic]
  obtain ⟨N, r, h⟩ := C70_eigh_terminates exCubicArr ha hs (.inl fun x => by
    have : x ⬝ᵥ toMat 3 3 exCubicArr *ᵥ x = 3 * x 0 ^ 2 + (x 0 + x 1) ^ 2 + (x 1 + x 2) ^ 2 + x 2 ^ 2 := by
      rw [hA]
      simp [exCubic, Matrix.mulVec, dotProduct, Fin.sum_univ_three]
      ring
    rw [this]
    positivity)
  have hl := (C31_eigh_shapes N exCubicArr).2.2 rfl
  rw [(h N le_rfl).1] at hl
  have hl : r.1.len = 3 := hl.1
  exact ⟨N, r.1, fun fuel hf => (h fuel hf).2, hl, fun i hi =>
    (C112_eigh_inexact ha hA exCubic_unreachable N).1 _ (h N le_rfl).2 i (by rw [hl]; exact hi)⟩

end LinfaLinalg
