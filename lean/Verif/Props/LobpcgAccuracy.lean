import Verif.Props.LobpcgRate

/-! # C124: how accurate the values returned by LOBPCG are

A residual of norm `ρ` says that a value is within `ρ` of some eigenvalue (C60). When the other eigenvalues are
further away than that, more is true: the values are those of the wanted eigenvalues, index by index, and their
errors are of the order `ρ²`. Exact real arithmetic. -/

set_option linter.unusedSectionVars false

namespace LinfaLinalg

open Matrix

/-- Errors that all have the same sign are bounded by their sum. -/
theorem each_le_sum {k : Nat} {x y : Fin k → ℝ} (h : ∀ j, y j ≤ x j) (j : Fin k) :
    |x j - y j| ≤ |∑ i, x i - ∑ i, y i| := by
  have h0 : ∀ i, 0 ≤ x i - y i := fun i => by linarith [h i]
  rw [← Finset.sum_sub_distrib, abs_of_nonneg (h0 j), abs_of_nonneg (Finset.sum_nonneg fun i _ => h0 i)]
  exact Finset.single_le_sum (f := fun i => x i - y i) (fun i _ => h0 i) (Finset.mem_univ j)

/-- The errors of the single Ritz values, for either end of the spectrum. -/
theorem each_temple {n k : Nat} {A Q : Matrix (Fin n) (Fin n) ℝ} {Λ : Fin n → ℝ} (hQ : Qᵀ * Q = 1)
    (hAQ : A = Q * diagonal Λ * Qᵀ) {X : Matrix (Fin n) (Fin k) ℝ} {μ : Fin k → ℝ} (hX : Xᵀ * X = 1)
    (hr : Xᵀ * A * X = diagonal μ) {order : Order} (hμ : Ordered order μ) {w : Fin k → Fin n}
    (hΛ : Ordered order fun j => Λ (w j)) {v g : ℝ} (hg : 0 < g) (hv : ∀ j, NoWorse order (μ j) v)
    (hgap : ∀ i, (∀ j, i ≠ w j) → (∀ j, Q.col i ⬝ᵥ X.col j = 0) ∨ Beyond order v (Λ i) g) (j : Fin k) :
    NoWorse order (Λ (w j)) (μ j) ∧ |μ j - Λ (w j)| ≤ |∑ i, μ i - ∑ i, Λ (w i)| := by
  have hQ' : Q * Qᵀ = 1 := mul_eq_one_comm.1 hQ
  have hC : (Qᵀ * X)ᵀ * (Qᵀ * X) = 1 := by
    rw [transpose_mul, transpose_transpose, Matrix.mul_assoc, ← Matrix.mul_assoc Q, hQ', Matrix.one_mul, hX]
  have hD : (Qᵀ * X)ᵀ * diagonal Λ * (Qᵀ * X) = diagonal μ := by
    rw [← hr, hAQ, transpose_mul, transpose_transpose]
    simp only [Matrix.mul_assoc]
  have hout : ∀ i, i ∉ Finset.univ.image w → ∀ j, i ≠ w j := fun i hi j h =>
    hi (Finset.mem_image.2 ⟨j, Finset.mem_univ j, h.symm⟩)
  cases order with
  | smallest =>
    have key := ritz_each hC hD hμ hΛ hv (fun i hi => (hgap i (hout i hi)).imp_right fun h => by
      have h' : v + g ≤ Λ i := h
      linarith)
    exact ⟨key j, each_le_sum key j⟩
  | largest =>
    have hD' : (Qᵀ * X)ᵀ * diagonal (fun i => -Λ i) * (Qᵀ * X) = diagonal fun j => -μ j := by
      have e1 : diagonal (fun i => -Λ i) = -diagonal Λ := by rw [← diagonal_neg]
      have e2 : (diagonal fun j => -μ j) = -diagonal μ := by rw [← diagonal_neg]
      rw [e1, e2, ← hD, Matrix.mul_neg, Matrix.neg_mul]
    have key := ritz_each hC hD' (fun s t h => neg_le_neg (hμ s t h)) (w := w)
      (fun s t h => neg_le_neg (hΛ s t h)) (v := -v) (fun j => neg_le_neg (hv j))
      (fun i hi => (hgap i (hout i hi)).imp_right fun h => by
        have h' : Λ i ≤ v - g := h
        linarith)
    refine ⟨neg_le_neg_iff.1 (key j), ?_⟩
    have := each_le_sum (x := fun j => Λ (w j)) (y := μ) (fun i => neg_le_neg_iff.1 (key i)) j
    rwa [abs_sub_comm, abs_sub_comm (∑ i, μ i)]

/-- The wanted eigenvalues as a set. -/
theorem image_card {n k : Nat} {w : Fin k → Fin n} (hw : Function.Injective w) :
    (Finset.univ.image w).card = k := by
  rw [Finset.card_image_of_injective _ hw, Finset.card_univ, Fintype.card_fin]

theorem sum_image' {n k : Nat} {w : Fin k → Fin n} (hw : Function.Injective w) (f : Fin n → ℝ) :
    ∑ i ∈ Finset.univ.image w, f i = ∑ j, f (w j) := Finset.sum_image fun _ _ _ _ h => hw h

/-- **C124**: let `w` name `k` eigenvalues in the order asked for, and let every other eigenvalue lie beyond the
returned values by at least `g > 0`, unless its eigenvector is excluded by the constraints. Then the returned
values approximate the eigenvalues `w`, index by index and from one side, with an error of at most
`(g + 2a)/g²` times the sum of the squared reported residual norms, and the sum of the squared sines of the angles
between the returned vectors and the eigenvectors `w` is at most `(g + 2a)/g³` times that sum. Here `a` bounds the
eigenvalues of the operator. Exact eigensolver for the small problems, Gram matrices without eigenvalues below
`1e-10`. -/
theorem C124_quadratic {n k : Nat} {A : Matrix (Fin n) (Fin n) ℝ} (hs : A.IsSymm) {eig : EigSolver ℝ}
    (he : EigWithin 0 eig) {P : LobParams ℝ} (hA : IsOperator A P) (hd : Deflates A P)
    {a : ℝ} (ha : 0 ≤ a) (hAa : ∀ x, len (A *ᵥ x) ≤ a * len x) {x0 : Arr2 ℝ} (hx0 : HasShape x0 n k)
    {maxiter : Nat} {res : LobpcgResult ℝ} {hist : List (Iterate ℝ)}
    (h : lobpcgRun eig P x0 maxiter = .ok (res, hist))
    (hc : ∀ it ∈ hist, ∀ B, it.gram = some B → WellConditioned condFloor B)
    {Q : Matrix (Fin n) (Fin n) ℝ} {Λ : Fin n → ℝ} (hQ : Qᵀ * Q = 1) (hAQ : A = Q * diagonal Λ * Qᵀ)
    {w : Fin k → Fin n} (hw : Function.Injective w) (hΛ : Ordered P.order fun j => Λ (w j))
    {b : Lobpcg ℝ} (hb : Returned res b) {ρ : Fin k → ℝ} (hρ : ∀ j : Fin k, b.rnorm[j.val]? = some (ρ j))
    {v g : ℝ} (hg : 0 < g) (hv : ∀ j : Fin k, NoWorse P.order (b.eigvals.get j) v)
    (hgap : ∀ i, (∀ j, i ≠ w j) → Excluded P (Q.col i) ∨ Beyond P.order v (Λ i) g) :
    (∀ j : Fin k, NoWorse P.order (Λ (w j)) (b.eigvals.get j) ∧
      |b.eigvals.get j - Λ (w j)| ≤ (g + 2 * a) / g ^ 2 * ∑ i, ρ i ^ 2) ∧
    k - ∑ i, ∑ j, (Q.col (w i) ⬝ᵥ (toMat n k b.eigvecs).col j) ^ 2 ≤
      (g + 2 * a) / g ^ 3 * ∑ i, ρ i ^ 2 := by
  obtain ⟨-, it, hit, rfl⟩ := C42_best_iterate_real eig P x0 maxiter res hist h b hb
  have hX := C45_orthonormal_partial hs he hA hx0 h it hit (hc it hit)
  obtain ⟨hr, hord⟩ := iterate_ritz hs he hA hx0 h it hit
  have hΛa : ∀ i, |Λ i| ≤ a := by
    refine ritz_abs_le hAa hQ ?_
    rw [hAQ, ← Matrix.mul_assoc, ← Matrix.mul_assoc, hQ, Matrix.one_mul, Matrix.mul_assoc, hQ, Matrix.mul_one]
  have hgap' : ∀ i, (∀ j, i ≠ w j) → (∀ j, Q.col i ⬝ᵥ (toMat n k it.pairs.eigvecs).col j = 0) ∨
      Beyond P.order v (Λ i) g := fun i hi =>
    (hgap i hi).imp_left fun hq j => excluded_perp hA hd hx0 h hit hq j
  have hρ' : ∀ j, len (A *ᵥ (toMat n k it.pairs.eigvecs).col j -
      it.pairs.eigvals.get j • (toMat n k it.pairs.eigvecs).col j) = ρ j := fun j => by
    have h1 := rnorm_resid hA hx0 h hit j
    rw [hρ j, Option.some.injEq] at h1
    exact h1.symm
  obtain ⟨-, h2, h3⟩ := block_temple hQ hAQ hX hr (image_card hw) hg ha hΛa (ritz_abs_le hAa hX hr) hv
    (fun i hi => hgap' i fun j h => hi (Finset.mem_image.2 ⟨j, Finset.mem_univ j, h.symm⟩))
  simp only [hρ', sum_image' hw] at h2 h3
  refine ⟨fun j => ?_, ?_⟩
  · obtain ⟨e1, e2⟩ := each_temple hQ hAQ hX hr hord hΛ hg hv hgap' j
    exact ⟨e1, e2.trans h2⟩
  · have h4 := h3.trans h2
    have e : (g + 2 * a) / g ^ 3 * ∑ i, ρ i ^ 2 = (g + 2 * a) / g ^ 2 * (∑ i, ρ i ^ 2) / g := by
      field_simp
    rw [e, le_div_iff₀ hg]
    linarith

/-- **C124**, in terms of a tolerance: if all reported residual norms are at most `t`, the errors of the values are
at most `k (g + 2a) (t/g)²`. Hypotheses as in `C124_quadratic`. -/
theorem C124_tolerance {n k : Nat} {A : Matrix (Fin n) (Fin n) ℝ} (hs : A.IsSymm) {eig : EigSolver ℝ}
    (he : EigWithin 0 eig) {P : LobParams ℝ} (hA : IsOperator A P) (hd : Deflates A P)
    {a : ℝ} (ha : 0 ≤ a) (hAa : ∀ x, len (A *ᵥ x) ≤ a * len x) {x0 : Arr2 ℝ} (hx0 : HasShape x0 n k)
    {maxiter : Nat} {res : LobpcgResult ℝ} {hist : List (Iterate ℝ)}
    (h : lobpcgRun eig P x0 maxiter = .ok (res, hist))
    (hc : ∀ it ∈ hist, ∀ B, it.gram = some B → WellConditioned condFloor B)
    {Q : Matrix (Fin n) (Fin n) ℝ} {Λ : Fin n → ℝ} (hQ : Qᵀ * Q = 1) (hAQ : A = Q * diagonal Λ * Qᵀ)
    {w : Fin k → Fin n} (hw : Function.Injective w) (hΛ : Ordered P.order fun j => Λ (w j))
    {b : Lobpcg ℝ} (hb : Returned res b) {t : ℝ} (ht : ∀ ρ ∈ b.rnorm, ρ ≤ t)
    {v g : ℝ} (hg : 0 < g) (hv : ∀ j : Fin k, NoWorse P.order (b.eigvals.get j) v)
    (hgap : ∀ i, (∀ j, i ≠ w j) → Excluded P (Q.col i) ∨ Beyond P.order v (Λ i) g) (j : Fin k) :
    |b.eigvals.get j - Λ (w j)| ≤ k * (g + 2 * a) * (t / g) ^ 2 := by
  obtain ⟨-, it, hit, hitb⟩ := C42_best_iterate_real eig P x0 maxiter res hist h b hb
  have hρ : ∀ j : Fin k, b.rnorm[j.val]? = some (len (resid A b j)) := fun j => by
    rw [← hitb]; exact rnorm_resid hA hx0 h hit j
  refine ((C124_quadratic hs he hA hd ha hAa hx0 h hc hQ hAQ hw hΛ hb hρ hg hv hgap).1 j).2.trans ?_
  have hsum : ∑ i : Fin k, len (resid A b i) ^ 2 ≤ k * t ^ 2 := by
    calc _ ≤ ∑ _i : Fin k, t ^ 2 := Finset.sum_le_sum fun i _ =>
          pow_le_pow_left₀ (len_nonneg _) (ht _ (List.mem_of_getElem? (hρ i))) 2
      _ = _ := by rw [Finset.sum_const, Finset.card_univ, Fintype.card_fin, nsmul_eq_mul]
  calc _ ≤ (g + 2 * a) / g ^ 2 * (k * t ^ 2) := mul_le_mul_of_nonneg_left hsum (by positivity)
    _ = _ := by field_simp

/-- **C124**, the rate for every single value: as long as no pair is locked, the error of every Ritz value after
`p` steps is at most `(1 - 2/5 (m/m')² g² / (k a (g + 2a)))^p` times the error of the sum of the first Ritz values.
Hypotheses as in `C123_block`. -/
theorem C124_rate {n k : Nat} {A M : Matrix (Fin n) (Fin n) ℝ} (hs : A.IsSymm) {eig : EigSolver ℝ}
    (he : EigWithin 0 eig) {P : LobParams ℝ} (hA : IsOperator A P) (hd : Deflates A P)
    (hM : IsPreconditioner M P) {a m m' : ℝ} (ha : 0 < a) (hAa : ∀ x, len (A *ᵥ x) ≤ a * len x) (hm : 0 < m)
    (hm' : 0 < m') (hMm : Between m m' M) {x0 : Arr2 ℝ} (hx0 : HasShape x0 n k)
    {maxiter : Nat} {res : LobpcgResult ℝ} {it0 : Iterate ℝ} {later : List (Iterate ℝ)}
    (h : lobpcgRun eig P x0 maxiter = .ok (res, it0 :: later))
    (hc : ∀ it ∈ it0 :: later, ∀ B, it.gram = some B → WellConditioned condFloor B)
    {Q : Matrix (Fin n) (Fin n) ℝ} {Λ : Fin n → ℝ} (hQ : Qᵀ * Q = 1) (hAQ : A = Q * diagonal Λ * Qᵀ)
    {w : Fin k → Fin n} (hw : Function.Injective w) (hΛ : Ordered P.order fun j => Λ (w j)) {v g : ℝ} (hg : 0 < g)
    (hv : ∀ j : Fin k, NoWorse P.order (it0.pairs.eigvals.get j) v)
    (hgap : ∀ i, (∀ j, i ≠ w j) → Excluded P (Q.col i) ∨ Beyond P.order v (Λ i) g)
    (p : Nat) (it : Iterate ℝ) (hp : (it0 :: later)[p]? = some it)
    (hact : ∀ q < p, ∀ it', (it0 :: later)[q]? = some it' → ∀ j : Fin k, it'.active[j.val]? = some true)
    (j : Fin k) :
    NoWorse P.order (Λ (w j)) (it.pairs.eigvals.get j) ∧
    |it.pairs.eigvals.get j - Λ (w j)| ≤
      (1 - 2 / 5 * (m / m') ^ 2 * g ^ 2 / (k * a * (g + 2 * a))) ^ p *
        |∑ j : Fin k, it0.pairs.eigvals.get j - ∑ j, Λ (w j)| := by
  have hmem := List.mem_of_getElem? hp
  have hX := C45_orthonormal_partial hs he hA hx0 h it hmem (hc it hmem)
  obtain ⟨hr, hord⟩ := iterate_ritz hs he hA hx0 h it hmem
  obtain ⟨h1, -⟩ := C123_block hs he hA hd hM ha hAa hm hm' hMm hx0 h hc hQ hAQ (image_card hw) hg hv
    (fun i hi => hgap i fun j h => hi (Finset.mem_image.2 ⟨j, Finset.mem_univ j, h.symm⟩)) p it hp hact
  rw [sum_image' hw] at h1
  obtain ⟨e1, e2⟩ := each_temple hQ hAQ hX hr hord hΛ hg (v := v) (fun j => by
    have h1 := C58_monotone hs he hA hx0 h hc 0 p (Nat.zero_le _) it0 it rfl hp j
    have h2 := hv j
    unfold NoWorse at h1 h2 ⊢
    cases ho : P.order with
    | smallest => simp only [ho] at h1 h2 ⊢; linarith
    | largest => simp only [ho] at h1 h2 ⊢; linarith)
    (fun i hi => (hgap i hi).imp_left fun hq j => excluded_perp hA hd hx0 h hmem hq j) j
  exact ⟨e1, e2.trans h1⟩

/-- The theorems are not vacuous: the run `strict_run` on `diag(1, 3)` from `(1, 1)` meets their hypotheses with
`w = ![1]`, `v = 2` and `g = 1`. -/
example : ∃ b it0 it1 ρ,
    lobpcgRun exactEig strictParams (ofRows 2 1 [[1], [1]]) 1 = .ok (.ok b, [it0, it1]) ∧ b.rnorm[0]? = some ρ ∧
      |b.eigvals.get 0 - 3| ≤ (1 + 2 * 3) / 1 ^ 2 * ρ ^ 2 ∧
      |it1.pairs.eigvals.get 0 - 3| ≤
        (1 - 2 / 5 * (1 / 1) ^ 2 * 1 ^ 2 / ((1 : Nat) * 3 * (1 + 2 * 3))) ^ 1 * |it0.pairs.eigvals.get 0 - 3| := by
  obtain ⟨b, it0, it1, h, hc⟩ := strict_run
  have hx0 : HasShape (ofRows 2 1 [[1], [1]] : Arr2 ℝ) 2 1 := ⟨rfl, rfl⟩
  have hfirst := strict_first h hc
  have hd : Deflates (toMat 2 2 (ofRows 2 2 [[1, 0], [0, 3]])) strictParams := fun y h => by cases h
  have hQ : (1 : Matrix (Fin 2) (Fin 2) ℝ)ᵀ * 1 = 1 := by simp
  have hAQ : toMat 2 2 (ofRows 2 2 [[1, 0], [0, 3]]) = 1 * diagonal ![1, 3] * (1 : Matrix (Fin 2) (Fin 2) ℝ)ᵀ := by
    ext i j
    fin_cases i <;> fin_cases j <;> simp [toMat, ofRows]
  have hw : Function.Injective (![1] : Fin 1 → Fin 2) := fun i j _ => Subsingleton.elim i j
  have hΛ : Ordered strictParams.order fun j => (![1, 3] : Fin 2 → ℝ) ((![1] : Fin 1 → Fin 2) j) := by
    intro i j _
    rw [Subsingleton.elim i j]
  have hgap : ∀ i, (∀ j, i ≠ (![1] : Fin 1 → Fin 2) j) →
      Excluded strictParams ((1 : Matrix (Fin 2) (Fin 2) ℝ).col i) ∨
        Beyond strictParams.order 2 ((![1, 3] : Fin 2 → ℝ) i) 1 := by
    intro i hi
    have h1 : i ≠ 1 := hi 0
    have h0 : i = 0 := by omega
    subst h0
    right
    show (1 : ℝ) ≤ 2 - 1
    norm_num
  have hmono : ∀ it ∈ [it0, it1], (2 : ℝ) ≤ it.pairs.eigvals.get 0 := by
    intro it hit
    obtain ⟨p, hp, rfl⟩ := List.mem_iff_getElem.1 hit
    have := C58_monotone strict_symm exactEig_within strict_operator hx0 h hc 0 p (Nat.zero_le _) it0 _ rfl
      (List.getElem?_eq_getElem hp) 0
    have h2 : it0.pairs.eigvals.get 0 ≤ _ := this
    rw [hfirst] at h2
    exact h2
  obtain ⟨-, it, hit, hitb⟩ := C42_best_iterate_real _ _ _ _ _ _ h b (.inl rfl)
  have hρ := rnorm_resid strict_operator hx0 h hit 0
  rw [hitb] at hρ
  refine ⟨b, it0, it1, _, h, hρ, ?_, ?_⟩
  · have := ((C124_quadratic strict_symm exactEig_within strict_operator hd (by norm_num) strict_bound hx0 h hc hQ
      hAQ hw hΛ (.inl rfl) (ρ := fun j => len (resid _ b j)) (fun j => by rw [Subsingleton.elim j 0]; exact hρ)
      (v := 2) (g := 1) one_pos
      (fun j => by rw [Subsingleton.elim j 0, ← hitb]; exact hmono it hit) hgap).1 0).2
    rw [Fin.sum_univ_one] at this
    exact this
  · have hact : ∀ q < 1, ∀ it', [it0, it1][q]? = some it' → ∀ j : Fin 1, it'.active[j.val]? = some true := by
      intro q hq it' hit j
      obtain rfl : q = 0 := by omega
      obtain rfl : it0 = it' := by simpa using hit
      have hchain := lobpcgRun_dir strict_symm strict_operator hd strict_precond hx0 h
      obtain ⟨-, -, -, -, -, -, -, -, -, -, -, -, -, -, ⟨i, hi⟩, -⟩ := hchain.rel
      rw [Subsingleton.elim j i]
      exact hi
    have := (C124_rate strict_symm exactEig_within strict_operator hd strict_precond (by norm_num) strict_bound
      one_pos one_pos (between_one 2) hx0 h hc hQ hAQ hw hΛ (v := 2) (g := 1) one_pos
      (fun j => by rw [Subsingleton.elim j 0]; exact hfirst.symm.le) hgap 1 it1 rfl hact 0).2
    rw [Fin.sum_univ_one, Fin.sum_univ_one] at this
    exact this

end LinfaLinalg
