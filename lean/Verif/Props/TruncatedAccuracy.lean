import Verif.Props.LobpcgAccuracy
import Verif.Props.TruncatedSvdRitz

/-! # Accuracy of the truncated decompositions

C124 for the front ends: the error of the values which `TruncatedEig` and `TruncatedSvd` return, in terms of the residual
norms which LOBPCG reports. -/

set_option linter.unusedSectionVars false

namespace LinfaLinalg

open Matrix

theorem gram_bound {p q : Nat} {B : Matrix (Fin p) (Fin q) ℝ} {Q : Matrix (Fin q) (Fin q) ℝ} {σ : Fin q → ℝ} {a : ℝ}
    (hQ : Qᵀ * Q = 1) (hB : Bᵀ * B = Q * diagonal (fun i => σ i ^ 2) * Qᵀ) (h0 : ∀ i, 0 ≤ σ i) (ha : ∀ i, σ i ≤ a)
    (x : Fin q → ℝ) : len ((Bᵀ * B) *ᵥ x) ≤ a ^ 2 * len x := by
  obtain ⟨h1, -, h3⟩ := eig_coords hQ hB x 0
  rw [zero_smul, sub_zero] at h3
  refine le_of_sq_le_sq ?_ (mul_nonneg (sq_nonneg a) (len_nonneg x))
  rw [h3, mul_pow, len_sq, h1, Finset.mul_sum]
  refine Finset.sum_le_sum fun i _ => mul_le_mul_of_nonneg_right ?_ (sq_nonneg _)
  rw [sub_zero]
  exact pow_le_pow_left₀ (sq_nonneg _) (pow_le_pow_left₀ (h0 i) (ha i) 2) 2

/-- The values `s` approximate the singular values `σ` from one side, with an error of at most `E / (s + σ)`. -/
def CloseFrom (order : Order) (E σ s : ℝ) : Prop := NoWorse order σ s ∧ |s - σ| ≤ E / (s + σ)

theorem closeFrom_of_sq {order : Order} {E σ s : ℝ} (hs : 0 < s) (hσ : 0 ≤ σ) (h1 : NoWorse order (σ ^ 2) (s ^ 2))
    (h2 : |s ^ 2 - σ ^ 2| ≤ E) : CloseFrom order E σ s := by
  have hp : 0 < s + σ := by linarith
  constructor
  · cases order
    · exact le_of_sq_le_sq h1 hσ
    · exact le_of_sq_le_sq h1 hs.le
  · rw [le_div_iff₀ hp]
    calc |s - σ| * (s + σ) = |(s - σ) * (s + σ)| := by rw [abs_mul, abs_of_pos hp]
      _ = |s ^ 2 - σ ^ 2| := by congr 1; ring
      _ ≤ E := h2

/-- The hypotheses about the spectrum, shared by the statements below: `Q` and `σ` are the right singular vectors and the
singular values of `B`, all at most `a`; `w` names `k` of them in the order asked for, and the squares of all others lie
beyond the returned estimates `μ` by at least `g`. -/
structure Separated {p q k : Nat} (order : Order) (B : Matrix (Fin p) (Fin q) ℝ) (Q : Matrix (Fin q) (Fin q) ℝ)
    (σ : Fin q → ℝ) (a : ℝ) (w : Fin k → Fin q) (μ : Nat → ℝ) (g : ℝ) : Prop where
  orth : Qᵀ * Q = 1
  gram : Bᵀ * B = Q * diagonal (fun i => σ i ^ 2) * Qᵀ
  nonneg : ∀ i, 0 ≤ σ i
  bound : ∀ i, σ i ≤ a
  inj : Function.Injective w
  ordered : Ordered order fun j => σ (w j)
  gap : 0 < g
  beyond : ∀ i, (∀ j, i ≠ w j) → ∀ j : Fin k, Beyond order (μ j) (σ i ^ 2) g

theorem values_close {p q k r : Nat} {B : Matrix (Fin p) (Fin q) ℝ} {eig : EigSolver ℝ} (he : EigWithin 0 eig)
    {P : LobParams ℝ} (hA : IsOperator (Bᵀ * B) P) (hy : P.y = none) (hk : 1 ≤ k) {x0 : Arr2 ℝ} (hx0 : HasShape x0 q k)
    {maxiter : Nat} {res : LobpcgResult ℝ} {hist : List (Iterate ℝ)} (h : lobpcgRun eig P x0 maxiter = .ok (res, hist))
    (hcond : ∀ it ∈ hist, ∀ C, it.gram = some C → WellConditioned condFloor C) {b : Lobpcg ℝ} (hb : Returned res b)
    {Q : Matrix (Fin q) (Fin q) ℝ} {σ : Fin q → ℝ} {a g : ℝ} {w : Fin k → Fin q}
    (hS : Separated P.order B Q σ a w b.eigvals.get g) {ρ : Fin k → ℝ} (hρ : ∀ j : Fin k, b.rnorm[j.val]? = some (ρ j))
    (hr : r ≤ k) {s : Nat → ℝ} (hs : ∀ j < r, 0 < s j ∧ s j ^ 2 = b.eigvals.get j) (j : Fin r) :
    CloseFrom P.order ((g + 2 * a ^ 2) / g ^ 2 * ∑ i, ρ i ^ 2) (σ (w (Fin.castLE hr j))) (s j) := by
  obtain ⟨h1, h2⟩ := hs j j.2
  have hsym := isSymm_gram B
  have hO := (C57_ritz_values hsym he hA hx0 h b hb).2
  have hd : Deflates (Bᵀ * B) P := fun y h => by rw [hy] at h; cases h
  -- the worst of the returned values
  let last : Fin k := ⟨k - 1, by omega⟩
  have hv : ∀ j : Fin k, NoWorse P.order (b.eigvals.get j) (b.eigvals.get last) := by
    intro j
    revert hO
    cases P.order <;> intro hO
    · exact hO j last (by rw [Fin.le_def]; have := j.2; simp only [last]; omega)
    · exact hO j last (by rw [Fin.le_def]; have := j.2; simp only [last]; omega)
  obtain ⟨k1, -⟩ := C124_quadratic hsym he hA hd (sq_nonneg a)
    (gram_bound hS.orth hS.gram hS.nonneg hS.bound) hx0 h hcond hS.orth hS.gram hS.inj
    (hS.ordered.sq fun i => hS.nonneg _) hb hρ hS.gap hv
    (fun i hi => .inr (hS.beyond i hi last))
  obtain ⟨k2, k3⟩ := k1 (Fin.castLE hr j)
  refine closeFrom_of_sq h1 (hS.nonneg _) ?_ ?_
  · rw [h2]; exact k2
  · rw [h2]; exact k3

/-- **C126**: `TruncatedSvd` for a matrix with more rows than columns. The values returned are close to the singular values
they stand for: on the side of `Order`, with an error of at most `(g + 2a²)/g²` times the sum of the squared residual
norms, divided by the sum of the two. Exact arithmetic, exact eigensolver for the small problems, Gram matrices without
eigenvalues below `1e-10`; converged or not. -/
theorem C126_tall [MagnitudeCorrection ℝ] (hc : 0 < (NdFloat.epsilon : ℝ) * MagnitudeCorrection.correction)
    (hc1 : (NdFloat.epsilon : ℝ) * MagnitudeCorrection.correction < 1) {ρ : Type} {n m num : Nat}
    {eig : EigSolver ℝ} (he : EigWithin 0 eig) (R : RandomSource ℝ ρ) (t : TruncatedSvd ℝ ρ)
    (hp : HasShape t.problem n m) (hnm : n > m) (hnum : 1 ≤ num) (res : LobpcgResult ℝ) (hist : List (Iterate ℝ))
    (h : lobpcgRun eig t.params (R.random m num t.rng).1 t.maxiter = .ok (res, hist))
    (hcond : ∀ it ∈ hist, ∀ C, it.gram = some C → WellConditioned condFloor C) (b : Lobpcg ℝ) (hb : Returned res b)
    (hrank : t.order = .smallest → ∀ x, (toMat n m t.problem).mulVec x = 0 → x = 0)
    {Q : Matrix (Fin m) (Fin m) ℝ} {σ : Fin m → ℝ} {a g : ℝ} {w : Fin num → Fin m}
    (hS : Separated t.order (toMat n m t.problem) Q σ a w b.eigvals.get g) {r : Fin num → ℝ}
    (hr : ∀ j : Fin num, b.rnorm[j.val]? = some (r j)) :
    ∃ out s, t.decompose eig R num = .ok out ∧ out.values = .ok s ∧ ∀ j : Fin num, j.val < s.len →
      CloseFrom t.order ((g + 2 * a ^ 2) / g ^ 2 * ∑ i, r i ^ 2) (σ (w j)) (s.get j) := by
  obtain ⟨out, k, u, s, vt, h1, -, h2, h3, -, -, h4⟩ := C74_tall hc hc1 he R t hp hnm hnum res hist h hcond b hb hrank
  refine ⟨out, s, h1, h2, fun j hj => ?_⟩
  have hk : k ≤ num := by
    cases ho : t.order with
    | largest => exact (h4.count_largest ho).1
    | smallest => exact (h4.count_smallest ho).le
  exact values_close (k := num) he (t.isOperator_tall hp hnm) rfl hnum (x0 := (R.random m num t.rng).1) ⟨rfl, rfl⟩ h hcond hb
    hS hr hk h4.value ⟨j, h3 ▸ hj⟩

/-- **C126**: `TruncatedSvd` for a matrix with no more rows than columns. -/
theorem C126_wide [MagnitudeCorrection ℝ] (hc : 0 < (NdFloat.epsilon : ℝ) * MagnitudeCorrection.correction)
    (hc1 : (NdFloat.epsilon : ℝ) * MagnitudeCorrection.correction < 1) {ρ : Type} {n m num : Nat}
    {eig : EigSolver ℝ} (he : EigWithin 0 eig) (R : RandomSource ℝ ρ) (t : TruncatedSvd ℝ ρ)
    (hp : HasShape t.problem n m) (hnm : n ≤ m) (hnum : 1 ≤ num) (res : LobpcgResult ℝ) (hist : List (Iterate ℝ))
    (h : lobpcgRun eig t.params (R.random n num t.rng).1 t.maxiter = .ok (res, hist))
    (hcond : ∀ it ∈ hist, ∀ C, it.gram = some C → WellConditioned condFloor C) (b : Lobpcg ℝ) (hb : Returned res b)
    (hrank : t.order = .smallest → ∀ x, (toMat n m t.problem)ᵀ.mulVec x = 0 → x = 0)
    {Q : Matrix (Fin n) (Fin n) ℝ} {σ : Fin n → ℝ} {a g : ℝ} {w : Fin num → Fin n}
    (hS : Separated t.order (toMat n m t.problem)ᵀ Q σ a w b.eigvals.get g) {r : Fin num → ℝ}
    (hr : ∀ j : Fin num, b.rnorm[j.val]? = some (r j)) :
    ∃ out s, t.decompose eig R num = .ok out ∧ out.values = .ok s ∧ ∀ j : Fin num, j.val < s.len →
      CloseFrom t.order ((g + 2 * a ^ 2) / g ^ 2 * ∑ i, r i ^ 2) (σ (w j)) (s.get j) := by
  obtain ⟨out, k, u, s, vt, h1, -, h2, h3, -, -, h4⟩ := C74_wide hc hc1 he R t hp hnm hnum res hist h hcond b hb hrank
  refine ⟨out, s, h1, h2, fun j hj => ?_⟩
  have hk : k ≤ num := by
    cases ho : t.order with
    | largest => exact (h4.count_largest ho).1
    | smallest => exact (h4.count_smallest ho).le
  have hA : IsOperator ((toMat n m t.problem)ᵀᵀ * (toMat n m t.problem)ᵀ) t.params := by
    rw [transpose_transpose]
    exact t.isOperator_wide hp hnm
  exact values_close (k := num) he hA rfl hnum (x0 := (R.random n num t.rng).1) ⟨rfl, rfl⟩ h hcond hb
    hS hr hk h4.value ⟨j, h3 ▸ hj⟩

/-- **C126**: `TruncatedEig`, with or without constraints and preconditioner. If every eigenvalue not named by `w` lies
beyond the returned values by at least `g`, or has an eigenvector which the constraints exclude, then the returned values
are those named by `w`, from one side and up to `(g + 2a)/g²` times the sum of the squared residual norms. -/
theorem C126_eig {ρ : Type} {n num : Nat} {eig : EigSolver ℝ} (he : EigWithin 0 eig) (R : RandomSource ℝ ρ)
    (t t' : TruncatedEig ℝ ρ) (ht : HasShape t.problem n n) (hs : (toMat n n t.problem).IsSymm)
    (hd : Deflates (toMat n n t.problem) t.params) (hnum : 1 ≤ num) (res : LobpcgResult ℝ)
    (h : t.decompose eig R num = .ok (res, t'))
    (hcond : ∀ hist, lobpcgRun eig t.params (R.random n num t.rng).1 t.maxiter = .ok (res, hist) →
      ∀ it ∈ hist, ∀ C, it.gram = some C → WellConditioned condFloor C)
    (b : Lobpcg ℝ) (hb : Returned res b) {a g : ℝ} {Q : Matrix (Fin n) (Fin n) ℝ} {Λ : Fin n → ℝ} (hQ : Qᵀ * Q = 1)
    (hAQ : toMat n n t.problem = Q * diagonal Λ * Qᵀ) (ha0 : 0 ≤ a)
    (ha : ∀ x, len (toMat n n t.problem *ᵥ x) ≤ a * len x) {w : Fin num → Fin n} (hw : Function.Injective w)
    (hΛ : Ordered t.order fun j => Λ (w j)) (hg : 0 < g)
    (hgap : ∀ i, (∀ j, i ≠ w j) →
      Excluded t.params (Q.col i) ∨ ∀ j : Fin num, Beyond t.order (b.eigvals.get j) (Λ i) g)
    {r : Fin num → ℝ} (hr : ∀ j : Fin num, b.rnorm[j.val]? = some (r j)) (j : Fin num) :
    NoWorse t.order (Λ (w j)) (b.eigvals.get j) ∧
      |b.eigvals.get j - Λ (w j)| ≤ (g + 2 * a) / g ^ 2 * ∑ i, r i ^ 2 := by
  obtain ⟨⟨hist, h1, -⟩, -⟩ := C78_decompose eig R t t' ht hnum res h
  have hA := t.isOperator ht
  have hO : Ordered t.order fun j : Fin num => b.eigvals.get j :=
    (C57_ritz_values hs he hA (x0 := (R.random n num t.rng).1) ⟨rfl, rfl⟩ h1 b hb).2
  let last : Fin num := ⟨num - 1, by omega⟩
  have hv : ∀ j : Fin num, NoWorse t.order (b.eigvals.get j) (b.eigvals.get last) := by
    intro j
    revert hO
    cases t.order <;> intro hO <;>
      exact hO j last (by rw [Fin.le_def]; have := j.2; simp only [last]; omega)
  exact (C124_quadratic hs he hA hd ha0 ha (x0 := (R.random n num t.rng).1) ⟨rfl, rfl⟩ h1 (hcond hist h1) hQ hAQ hw hΛ
    hb hr hg hv (fun i hi => (hgap i hi).imp id fun k => k last)).1 j

/-- C126 is not vacuous: the run `tall_run` for the largest singular value `2` of `diag(1, 2)` with a zero row meets its
hypotheses, with the gap `1`. -/
example : ∃ b hist s ρ,
    letI : MagnitudeCorrection ℝ := ⟨1000⟩
    let R : RandomSource ℝ Unit := ⟨fun _ _ s => (fun _ _ => 1, s)⟩
    lobpcgRun exactEig (tallProblem .largest).params (R.random 2 1 ()).1 1 = .ok (.ok b, hist) ∧
    b.rnorm[0]? = some ρ ∧ s.len = 1 ∧
    (∃ out, (tallProblem .largest).decompose exactEig R 1 = .ok out ∧ out.values = .ok s) ∧
    s.get 0 ≤ 2 ∧ |s.get 0 - 2| ≤ (1 + 2 * 2 ^ 2) / 1 ^ 2 * ρ ^ 2 / (s.get 0 + 2) := by
  let _ : MagnitudeCorrection ℝ := ⟨1000⟩
  set R : RandomSource ℝ Unit := ⟨fun _ _ s => (fun _ _ => 1, s)⟩ with hR
  obtain ⟨b, hist, h, hc, hrank⟩ := tall_run .largest
  rw [← hR] at h
  have hp : HasShape (tallProblem .largest).problem 3 2 := ⟨rfl, rfl⟩
  have hA := (tallProblem .largest).isOperator_tall hp (by norm_num)
  have hsym := isSymm_gram (toMat 3 2 (tallProblem .largest).problem)
  have hx0 : HasShape (R.random 2 1 ()).1 2 1 := ⟨rfl, rfl⟩
  obtain ⟨-, it, hit, hitb⟩ := C42_best_iterate_real _ _ _ _ _ _ h b (.inl rfl)
  have hρ := rnorm_resid hA hx0 h hit 0
  rw [hitb] at hρ
  obtain ⟨p, hpl, hpe⟩ := List.mem_iff_getElem.1 hit
  have h0l : 0 < hist.length := by omega
  have hm0 : hist[0] ∈ hist := List.getElem_mem h0l
  obtain ⟨C, h5⟩ := first_iterate_span hA.opShape rfl hx0 h hist[0] (by rw [List.head?_eq_getElem?]; exact List.getElem?_eq_getElem h0l)
  have h6 := C45_orthonormal_partial hsym exactEig_within hA hx0 h _ hm0 (hc _ hm0)
  have h7 := congrFun (congrFun (iterate_ritz hsym exactEig_within hA hx0 h _ hm0).1 0) 0
  rw [diagonal_apply_eq] at h7
  have t2 := congrFun (congrFun h6 0) 0
  rw [h5] at h7 t2
  have hfirst : (hist[0]).pairs.eigvals.get 0 = 5 / 2 := by
    simp [toMat, Matrix.mul_apply, ofRows, Fin.sum_univ_two, Fin.sum_univ_three, tallProblem, RandomSource.random, hR]
      at h7 t2
    linarith
  have hmono : 5 / 2 ≤ b.eigvals.get 0 := by
    have := C58_monotone hsym exactEig_within hA hx0 h hc 0 p (Nat.zero_le _) _ it
      (List.getElem?_eq_getElem h0l) (by rw [List.getElem?_eq_getElem hpl, hpe]) 0
    have h2 : (hist[0]).pairs.eigvals.get 0 ≤ it.pairs.eigvals.get 0 := this
    rw [hfirst, hitb] at h2
    exact h2
  have hS : Separated (k := 1) (tallProblem .largest).order (toMat 3 2 (tallProblem .largest).problem) 1 ![1, 2] 2 ![1]
      b.eigvals.get 1 := by
    refine ⟨by simp, ?_, ?_, ?_, fun i j _ => Subsingleton.elim i j, ?_, one_pos, ?_⟩
    · ext i j
      fin_cases i <;> fin_cases j <;>
        simp [toMat, ofRows, tallProblem, Matrix.mul_apply, Fin.sum_univ_three] <;> norm_num
    · intro i; fin_cases i <;> simp
    · intro i; fin_cases i <;> simp
    · intro i j _
      rw [Subsingleton.elim i j]
    · intro i hi j
      have h1 : i ≠ 1 := hi 0
      have h0 : i = 0 := by omega
      subst h0
      rw [Subsingleton.elim j 0]
      show (1 : ℝ) ^ 2 ≤ b.eigvals.get 0 - 1
      linarith
  have e1 : 0 < (NdFloat.epsilon : ℝ) * MagnitudeCorrection.correction := by
    show (0 : ℝ) < (2 : ℝ)⁻¹ ^ 52 * 1000
    positivity
  have e2 : (NdFloat.epsilon : ℝ) * MagnitudeCorrection.correction < 1 := by
    show (2 : ℝ)⁻¹ ^ 52 * 1000 < 1
    norm_num
  obtain ⟨out, s, k1, k2, k3⟩ := C126_tall e1 e2 exactEig_within R (tallProblem .largest) hp (by norm_num) le_rfl
    (.ok b) hist h hc b (.inl rfl) (fun _ => hrank) hS (r := fun j => len (resid _ b j))
    (fun j => by rw [Subsingleton.elim j 0]; exact hρ)
  obtain ⟨out', r, u, s', vt, q1, -, q2, q3, -, -, q4⟩ := C74_tall e1 e2 exactEig_within R (tallProblem .largest) hp
    (by norm_num) le_rfl (.ok b) hist h hc b (.inl rfl) (fun _ => hrank)
  rw [k1] at q1
  obtain rfl : out = out' := by injection q1
  rw [k2] at q2
  obtain rfl : s = s' := by injection q2
  have hlen : s.len = 1 := by
    obtain ⟨c1, c2⟩ := q4.count_largest rfl
    have := (c2 0 one_pos).2 (by
      have : 0 < b.eigvals.get 0 := by linarith
      nlinarith)
    omega
  have := k3 0 (by rw [hlen]; exact one_pos)
  refine ⟨b, hist, s, _, h, hρ, hlen, ⟨out, k1, k2⟩, this.1, ?_⟩
  have h2 := this.2
  rw [Fin.sum_univ_one] at h2
  exact h2

end LinfaLinalg
