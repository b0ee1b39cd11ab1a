import Verif.Props.TruncatedSvd
import Verif.Props.LobpcgErrors

/-! # C74: what the truncated singular value decomposition returns -/

set_option linter.unusedSectionVars false

namespace LinfaLinalg

open Matrix

/-- A strictly increasing list that contains everything below its members counts from zero. -/
theorem list_eq_range (l : List Nat) (h1 : l.Pairwise (· < ·)) (h2 : ∀ i ∈ l, ∀ j < i, j ∈ l) :
    l = List.range l.length := by
  have key : ∀ j (hj : j < l.length), l[j] = j := by
    intro j
    induction j using Nat.strong_induction_on with
    | _ j ih =>
      intro hj
      rcases lt_trichotomy l[j] j with h | h | h
      · exfalso
        have e := ih _ h (h.trans hj)
        have := List.pairwise_iff_getElem.1 h1 l[j] j (h.trans hj) hj h
        omega
      · exact h
      · exfalso
        obtain ⟨i, hi, e⟩ := List.mem_iff_getElem.1 (h2 _ (List.getElem_mem hj) j h)
        rcases lt_trichotomy i j with hij | hij | hij
        · have := ih i hij hi
          omega
        · subst hij
          omega
        · have := List.pairwise_iff_getElem.1 h1 j i hj hi hij
          omega
  apply List.ext_getElem
  · simp
  · intro j hj _
    rw [key j hj, List.getElem_range]

section

variable [MagnitudeCorrection ℝ]

/-- Values that are in order already stay where they are, and those that are kept are the first ones. -/
theorem selected_prefix (hc : 0 < (NdFloat.epsilon : ℝ) * MagnitudeCorrection.correction)
    (hc1 : (NdFloat.epsilon : ℝ) * MagnitudeCorrection.correction < 1) (t : TruncatedSvdResult ℝ) {k : Nat}
    (hl : t.eigvals.len = k) (hk : 0 < k) (hord : Ordered t.order fun i : Fin k => t.eigvals.get i)
    (hpos : t.order = .smallest → ∀ i < k, 0 < t.eigvals.get i) :
    ∃ r ≤ k, t.valuesWithIndices = .ok ((List.range r).map fun i => (Real.sqrt (t.eigvals.get i), i)) ∧
      (t.order = .largest → ∀ j < k, (j < r ↔
        NdFloat.epsilon * MagnitudeCorrection.correction * t.eigvals.get 0 < t.eigvals.get j)) ∧
      (t.order = .smallest → r = k) ∧ ∀ j < r, 0 < t.eigvals.get j := by
  have incr : ∀ (keep : ℝ → Prop) (idx : List Nat), SelectedBy t.order t.eigvals keep idx →
      idx.Pairwise (· < ·) := by
    intro keep idx hs
    rw [List.pairwise_iff_getElem]
    intro i j hi hj hij
    have h1 := (List.pairwise_iff_getElem.1 hs.sorted i j hi hj hij).2
    have hi' := ((hs.mem _).1 (List.getElem_mem hi)).1
    have hj' := ((hs.mem _).1 (List.getElem_mem hj)).1
    by_contra hn
    have hle : idx[j] ≤ idx[i] := by omega
    apply hn
    apply h1
    revert hord
    cases t.order <;> intro hord <;> simp only [InOrder, real_le, decide_eq_true_eq] <;>
      exact hord ⟨idx[j], by omega⟩ ⟨idx[i], by omega⟩ hle
  cases ho : t.order with
  | largest =>
    obtain ⟨top, idx, htop, hmax, hs, h1, -⟩ := C54_largest t ho (NaNFree.real _) (by omega)
    simp only [real_le, real_lt, decide_eq_true_eq] at hmax hs
    rw [ho] at hord
    have e0 : t.eigvals.get top = t.eigvals.get 0 :=
      le_antisymm (hord ⟨0, hk⟩ ⟨top, by omega⟩ (Nat.zero_le _)) (hmax 0 (by omega))
    rw [e0] at hs
    have hr : idx = List.range idx.length := by
      refine list_eq_range idx (incr _ idx (by rw [ho]; exact hs)) fun i hi j hj => ?_
      obtain ⟨h3, h4⟩ := (hs.mem i).1 hi
      exact (hs.mem j).2 ⟨by omega,
        lt_of_lt_of_le h4 (hord ⟨j, by omega⟩ ⟨i, by omega⟩ (by simpa using hj.le))⟩
    have hm : ∀ j, j < idx.length ↔ j < t.eigvals.len ∧
        NdFloat.epsilon * MagnitudeCorrection.correction * t.eigvals.get 0 < t.eigvals.get j := by
      intro j
      rw [← hs.mem j, hr, List.mem_range, List.length_range]
    refine ⟨idx.length, ?_, ?_, fun _ j hj => ?_, (fun h => by cases h), fun j hj => ?_⟩
    · by_contra hn
      have := ((hm k).1 (by omega)).1
      omega
    · rw [← hr]; exact h1
    · rw [hm, hl]
      exact ⟨fun h => h.2, fun h => ⟨hj, h⟩⟩
    · obtain ⟨h3, h4⟩ := (hm j).1 hj
      exact kept_pos hc hc1 (hord ⟨0, hk⟩ ⟨j, by omega⟩ (Nat.zero_le _)) h4
  | smallest =>
    obtain ⟨idx, hs, h1, -⟩ := C54_smallest t ho (NaNFree.real _)
    have hr : idx = List.range idx.length := by
      refine list_eq_range idx (incr _ idx (by rw [ho]; exact hs)) fun i hi j hj => ?_
      have := ((hs.mem i).1 hi).1
      exact (hs.mem j).2 ⟨by omega, trivial⟩
    have hm : ∀ j, j < idx.length ↔ j < k := by
      intro j
      have := hs.mem j
      rw [hr, List.mem_range, and_true, hl] at this
      rw [← this]
    have hk' : idx.length = k := by
      have h3 := hm k
      have h4 := hm idx.length
      omega
    refine ⟨k, le_rfl, ?_, (fun h => by cases h), fun _ => rfl, hpos ho⟩
    rw [← hk', ← hr]; exact h1

/-- The first columns of a matrix. -/
theorem selectCols_range {q k r : Nat} (e : Arr2 ℝ) (he : HasShape e q k) (hr : r ≤ k) :
    ∃ w, e.selectCols (List.range r) = .ok w ∧ HasShape w q r ∧
      toMat q r w = (toMat q k e).submatrix id (Fin.castLE hr) := by
  refine ⟨⟨e.nr, (List.range r).length, fun i j => e.get i ((List.range r).getD j 0)⟩, ?_,
    ⟨he.1, by simp⟩, ?_⟩
  · unfold Arr2.selectCols
    rw [if_pos]
    rw [List.all_eq_true]
    intro j hj
    rw [he.2]
    exact decide_eq_true ((List.mem_range.1 hj).trans_le hr)
  · ext i j
    simp [toMat, List.getD_eq_getElem?_getD]

/-- Ritz triples from Ritz pairs of the Gram matrix. -/
theorem ritz_triples {p q k r : Nat} (hr : r ≤ k) (B : Matrix (Fin p) (Fin q) ℝ) (X : Matrix (Fin q) (Fin k) ℝ)
    (v : Nat → ℝ) (hX : Xᵀ * X = 1) (hG : Xᵀ * (Bᵀ * B) * X = diagonal fun i : Fin k => v i)
    (hv : ∀ j < r, 0 < v j) (W : Matrix (Fin q) (Fin r) ℝ) (hW : W = X.submatrix id (Fin.castLE hr))
    (U : Matrix (Fin p) (Fin r) ℝ) (hU : U = B * W * diagonal fun i : Fin r => (Real.sqrt (v i))⁻¹) :
    Wᵀ * W = 1 ∧ Uᵀ * U = 1 ∧ B * W = U * diagonal fun i : Fin r => Real.sqrt (v i) := by
  have hs : ∀ i : Fin r, 0 < Real.sqrt (v i) := fun i => Real.sqrt_pos.2 (hv i i.2)
  have hWW : Wᵀ * W = 1 := by
    have : Wᵀ * W = (Xᵀ * X).submatrix (Fin.castLE hr) (Fin.castLE hr) := by
      rw [hW]; rfl
    rw [this, hX, submatrix_one _ (Fin.castLE_injective hr)]
  have hWG : Wᵀ * (Bᵀ * B) * W = diagonal fun i : Fin r => Real.sqrt (v i) * Real.sqrt (v i) := by
    have : Wᵀ * (Bᵀ * B) * W = (Xᵀ * (Bᵀ * B) * X).submatrix (Fin.castLE hr) (Fin.castLE hr) := by
      rw [hW]; rfl
    rw [this, hG, submatrix_diagonal _ _ (Fin.castLE_injective hr)]
    congr 1
    funext i
    exact (Real.mul_self_sqrt (hv i i.2).le).symm
  refine ⟨hWW, ?_, ?_⟩
  · have : Uᵀ * U = diagonal (fun i : Fin r => (Real.sqrt (v i))⁻¹) * (Wᵀ * (Bᵀ * B) * W) *
        diagonal fun i : Fin r => (Real.sqrt (v i))⁻¹ := by
      rw [hU, transpose_mul, transpose_mul, diagonal_transpose]
      simp only [Matrix.mul_assoc]
    rw [this, hWG, diagonal_mul_diagonal, diagonal_mul_diagonal, ← diagonal_one]
    congr 1
    funext i
    have := (hs i).ne'
    field_simp
  · rw [hU, Matrix.mul_assoc _ (diagonal _), diagonal_mul_diagonal]
    have : (fun i : Fin r => (Real.sqrt (v i))⁻¹ * Real.sqrt (v i)) = fun _ => (1 : ℝ) :=
      funext fun i => inv_mul_cancel₀ (hs i).ne'
    rw [this, diagonal_one, Matrix.mul_one]

end

/-- The operator of a `TruncatedSvd` is multiplication by the Gram matrix. -/
theorem TruncatedSvd.isOperator_tall {ρ : Type} {n m : Nat} (t : TruncatedSvd ℝ ρ)
    (hp : HasShape t.problem n m) (hnm : n > m) :
    IsOperator ((toMat n m t.problem)ᵀ * toMat n m t.problem) t.params := by
  intro call y z k hy hz
  simp only [TruncatedSvd.params] at hz
  rw [if_pos (by rw [hp.1, hp.2]; exact hnm)] at hz
  simp only [bind_eq_ok] at hz
  obtain ⟨w, h1, h2⟩ := hz
  obtain ⟨s1, e1⟩ := dot_mat h1 hp hy
  obtain ⟨s2, e2⟩ := dot_mat h2 (shape_t hp) s1
  refine ⟨s2, ?_⟩
  rw [e2, e1, Matrix.mul_assoc]
  rfl

theorem TruncatedSvd.isOperator_wide {ρ : Type} {n m : Nat} (t : TruncatedSvd ℝ ρ)
    (hp : HasShape t.problem n m) (hnm : n ≤ m) :
    IsOperator (toMat n m t.problem * (toMat n m t.problem)ᵀ) t.params := by
  intro call y z k hy hz
  simp only [TruncatedSvd.params] at hz
  rw [if_neg (by rw [hp.1, hp.2]; omega)] at hz
  simp only [bind_eq_ok] at hz
  obtain ⟨w, h1, h2⟩ := hz
  obtain ⟨s1, e1⟩ := dot_mat h1 (shape_t hp) hy
  obtain ⟨s2, e2⟩ := dot_mat h2 hp s1
  refine ⟨s2, ?_⟩
  rw [e2, e1, Matrix.mul_assoc]
  rfl

/-- What is promised about `(U, values, Vt)`. `B` is the matrix or its transpose, whichever has no more
columns than rows, `V` is the side on which the eigenproblem is solved, `U` the other side; `b` are the
eigenvalue estimates. -/
structure RitzTriples [MagnitudeCorrection ℝ] (order : Order) {p q r : Nat} (num : Nat)
    (B : Matrix (Fin p) (Fin q) ℝ) (U : Matrix (Fin p) (Fin r) ℝ) (s : Nat → ℝ) (V : Matrix (Fin q) (Fin r) ℝ)
    (b : Nat → ℝ) : Prop where
  /-- All of the values are there for `Order::Smallest`, those above the cut-off for `Order::Largest`. -/
  count_largest : order = .largest → r ≤ num ∧ ∀ j < num, (j < r ↔
    NdFloat.epsilon * MagnitudeCorrection.correction * b 0 < b j)
  count_smallest : order = .smallest → r = num
  value : ∀ j < r, 0 < s j ∧ s j ^ 2 = b j
  ordered : Ordered order fun j : Fin r => s j
  orth_u : Uᵀ * U = 1
  orth_v : Vᵀ * V = 1
  /-- One of the two equations of a singular value decomposition holds exactly, -/
  exact_side : B * V = U * diagonal fun j : Fin r => s j
  /-- and the defect in the other bounds the distance to a singular value. -/
  near : ∀ j : Fin r, ∃ μ : ℝ, (∃ x : Fin q → ℝ, x ≠ 0 ∧ (Bᵀ * B).mulVec x = μ • x) ∧
    |μ - s j ^ 2| ≤ s j * Real.sqrt (∑ i, (Bᵀ * U - V * diagonal fun j : Fin r => s j) i j ^ 2)
  /-- No value is on the wrong side of the singular value it stands for. -/
  one_sided : ∀ (hrq : r ≤ q) (Q : Matrix (Fin q) (Fin q) ℝ) (σ : Fin q → ℝ), Qᵀ * Q = 1 →
    Bᵀ * B = Q * diagonal (fun i => σ i ^ 2) * Qᵀ → (∀ i, 0 ≤ σ i) → Ordered order σ →
    ∀ j : Fin r, NoWorse order (σ (Fin.castLE hrq j)) (s j)

theorem Ordered.sq {order : Order} {k : Nat} {v : Fin k → ℝ} (h : Ordered order v) (h0 : ∀ i, 0 ≤ v i) :
    Ordered order fun i => v i ^ 2 := by
  cases order <;> exact fun i j hij => pow_le_pow_left₀ (h0 _) (h i j hij) 2

theorem NoWorse.of_sq {order : Order} {x y : ℝ} (h : NoWorse order (x ^ 2) (y ^ 2)) (hx : 0 ≤ x) (hy : 0 ≤ y) :
    NoWorse order x y := by
  cases order
  · exact (sq_le_sq₀ hy hx).1 h
  · exact (sq_le_sq₀ hx hy).1 h

section

variable [MagnitudeCorrection ℝ]

/-- Ritz triples from what `lobpcg` returns for the Gram matrix. -/
theorem ritzTriples_of_run {p q num r : Nat} (B : Matrix (Fin p) (Fin q) ℝ)
    {eig : EigSolver ℝ} (he : EigWithin 0 eig) {P : LobParams ℝ} (hA : IsOperator (Bᵀ * B) P) {x0 : Arr2 ℝ}
    (hx0 : HasShape x0 q num) {maxiter : Nat} {res : LobpcgResult ℝ} {hist : List (Iterate ℝ)}
    (h : lobpcgRun eig P x0 maxiter = .ok (res, hist))
    (hcond : ∀ it ∈ hist, ∀ C, it.gram = some C → WellConditioned condFloor C) (b : Lobpcg ℝ)
    (hb : Returned res b) (hr : r ≤ num)
    (h1 : P.order = .largest → ∀ j < num, (j < r ↔
        NdFloat.epsilon * MagnitudeCorrection.correction * b.eigvals.get 0 < b.eigvals.get j))
    (h2 : P.order = .smallest → r = num) (h3 : ∀ j < r, 0 < b.eigvals.get j)
    (W : Matrix (Fin q) (Fin r) ℝ) (hW : W = (toMat q num b.eigvecs).submatrix id (Fin.castLE hr))
    (U : Matrix (Fin p) (Fin r) ℝ)
    (hU : U = B * W * diagonal fun i : Fin r => (Real.sqrt (b.eigvals.get i))⁻¹) (s : Nat → ℝ)
    (hs : ∀ j < r, s j = Real.sqrt (b.eigvals.get j)) :
    RitzTriples P.order num B U s W b.eigvals.get := by
  have hsym : (Bᵀ * B).IsSymm := isSymm_gram B
  have hX := C45_returned_partial hsym he hA hx0 h hcond b hb
  obtain ⟨hR, hO⟩ := C57_ritz_values hsym he hA hx0 h b hb
  obtain ⟨g1, g2, g3⟩ := ritz_triples hr B _ b.eigvals.get hX hR h3 W hW U hU
  have hval : ∀ j < r, 0 < s j ∧ s j ^ 2 = b.eigvals.get j := by
    intro j hj
    rw [hs j hj]
    exact ⟨Real.sqrt_pos.2 (h3 j hj), Real.sq_sqrt (h3 j hj).le⟩
  have hd : (diagonal fun i : Fin r => Real.sqrt (b.eigvals.get i)) = diagonal fun i : Fin r => s i := by
    congr 1
    funext i
    exact (hs i i.2).symm
  rw [hd] at g3
  refine ⟨fun ho => ⟨hr, h1 ho⟩, h2, hval, ?_, g2, g1, g3, ?_, ?_⟩
  · revert hO
    cases P.order <;> intro hO i j hij <;> simp only <;> rw [hs i i.2, hs j j.2] <;>
      exact Real.sqrt_le_sqrt (hO (Fin.castLE hr i) (Fin.castLE hr j) hij)
  · intro j
    obtain ⟨hj0, hj2⟩ := hval j j.2
    have hWj : ∑ i, W i j ^ 2 = 1 := by
      have := congrFun (congrFun g1 j) j
      rw [mul_apply, one_apply_eq] at this
      rw [← this]
      exact Finset.sum_congr rfl fun i _ => by rw [transpose_apply, sq]
    obtain ⟨μ, e1, e2⟩ := residual_bound hsym (fun i => W i j) (s j ^ 2) (fun h0 => by
      have : ∑ i, W i j ^ 2 = 0 := Finset.sum_eq_zero fun i _ => by
        have := congrFun h0 i
        simp only [Pi.zero_apply] at this
        rw [this]; ring
      rw [hWj] at this
      exact one_ne_zero this)
    refine ⟨μ, e1, ?_⟩
    rw [hWj, Real.sqrt_one, mul_one] at e2
    refine e2.trans (le_of_eq ?_)
    have e3 : ∀ i, (Bᵀ * B).mulVec (fun i => W i j) i - s j ^ 2 * W i j =
        s j * (Bᵀ * U - W * diagonal fun j : Fin r => s j) i j := by
      intro i
      have e4 : (Bᵀ * B).mulVec (fun i => W i j) i = (Bᵀ * U * diagonal fun j : Fin r => s j) i j := by
        rw [Matrix.mul_assoc, ← g3, ← Matrix.mul_assoc]
        rfl
      rw [e4, mul_diagonal, Matrix.sub_apply, mul_diagonal]
      ring
    rw [Finset.sum_congr rfl fun i _ => by rw [e3 i, mul_pow], ← Finset.mul_sum,
      Real.sqrt_mul (sq_nonneg _), Real.sqrt_sq hj0.le]
  · intro hrq Q σ hQ hBQ hσ0 hσ j
    obtain ⟨hj0, hj2⟩ := hval j j.2
    have hnum : num ≤ q := by
      have := Matrix.rank_le_height (toMat q num b.eigvecs)
      have h5 : (1 : Matrix (Fin num) (Fin num) ℝ).rank ≤ (toMat q num b.eigvecs).rank := by
        rw [← hX]
        exact Matrix.rank_mul_le_right _ _
      rw [Matrix.rank_one, Fintype.card_fin] at h5
      omega
    obtain ⟨⟨it, hit, rfl⟩, -⟩ := C42_best_iterate eig P x0 maxiter res hist h b hb
    have := C59_one_sided hsym he hA hx0 h it hit (hcond it hit) hnum Q (fun i => σ i ^ 2) hQ hBQ
      (hσ.sq hσ0) (Fin.castLE hr j)
    refine NoWorse.of_sq ?_ (hσ0 _) hj0.le
    rw [hj2]
    exact this

/-- The Ritz values of a Gram matrix are positive if the matrix is injective. -/
theorem ritz_pos {p q num : Nat} (B : Matrix (Fin p) (Fin q) ℝ) (X : Matrix (Fin q) (Fin num) ℝ) (v : Nat → ℝ)
    (hX : Xᵀ * X = 1) (hR : Xᵀ * (Bᵀ * B) * X = diagonal fun i : Fin num => v i)
    (hB : ∀ x, B.mulVec x = 0 → x = 0) : ∀ j < num, 0 < v j := by
  intro j hj
  have h1 := congrFun (congrFun hR ⟨j, hj⟩) ⟨j, hj⟩
  rw [diagonal_apply_eq] at h1
  have h2 : Xᵀ * (Bᵀ * B) * X = (B * X)ᵀ * (B * X) := by
    rw [transpose_mul]; simp only [Matrix.mul_assoc]
  rw [h2, mul_apply] at h1
  simp only [transpose_apply] at h1
  rw [← h1]
  refine lt_of_le_of_ne (Finset.sum_nonneg fun i _ => mul_self_nonneg _) fun h0 => ?_
  have h3 : ∀ i, (B * X) i ⟨j, hj⟩ = 0 := fun i =>
    mul_self_eq_zero.1 ((Finset.sum_eq_zero_iff_of_nonneg fun i _ => mul_self_nonneg _).1 h0.symm i (by simp))
  have h4 := hB (fun i => X i ⟨j, hj⟩) (funext fun i => h3 i)
  have h5 := congrFun (congrFun hX ⟨j, hj⟩) ⟨j, hj⟩
  rw [mul_apply, one_apply_eq] at h5
  have : ∀ i, X i ⟨j, hj⟩ = 0 := fun i => congrFun h4 i
  simp [this] at h5

/-- C74 together with where the right singular vectors come from. -/
theorem tall_triples (hc : 0 < (NdFloat.epsilon : ℝ) * MagnitudeCorrection.correction)
    (hc1 : (NdFloat.epsilon : ℝ) * MagnitudeCorrection.correction < 1) {ρ : Type} {n m num : Nat}
    {eig : EigSolver ℝ} (he : EigWithin 0 eig) (R : RandomSource ℝ ρ) (t : TruncatedSvd ℝ ρ)
    (hp : HasShape t.problem n m) (hnm : n > m) (hnum : 1 ≤ num) (res : LobpcgResult ℝ)
    (hist : List (Iterate ℝ))
    (h : lobpcgRun eig t.params (R.random m num t.rng).1 t.maxiter = .ok (res, hist))
    (hcond : ∀ it ∈ hist, ∀ C, it.gram = some C → WellConditioned condFloor C) (b : Lobpcg ℝ)
    (hb : Returned res b)
    (hrank : t.order = .smallest → ∀ x, (toMat n m t.problem).mulVec x = 0 → x = 0) :
    ∃ (out : TruncatedSvdResult ℝ) (r : Nat) (u : Arr2 ℝ) (s : Arr1 ℝ) (vt : Arr2 ℝ),
      t.decompose eig R num = .ok out ∧ out.valuesVectors = .ok (u, s, vt) ∧ out.values = .ok s ∧
      s.len = r ∧ HasShape u n r ∧ HasShape vt r m ∧
      RitzTriples t.order num (toMat n m t.problem) (toMat n r u) s.get (toMat r m vt)ᵀ b.eigvals.get ∧
      ∃ hr : r ≤ num, (toMat r m vt)ᵀ = (toMat m num b.eigvecs).submatrix id (Fin.castLE hr) := by
  have hx0 : HasShape (R.random m num t.rng).1 m num := ⟨rfl, rfl⟩
  have hA := t.isOperator_tall hp hnm
  have hsym := isSymm_gram (toMat n m t.problem)
  obtain ⟨z1, z2, z3, -⟩ := C48_shapes eig t.params _ t.maxiter res hist h b hb
  have se : HasShape b.eigvecs m num := ⟨z2, z3⟩
  have hX := C45_returned_partial hsym he hA hx0 h hcond b hb
  obtain ⟨hR, hO⟩ := C57_ritz_values hsym he hA hx0 h b hb
  obtain ⟨r, hr, hv, k1, k2, k3⟩ := selected_prefix hc hc1
    ⟨b.eigvals, b.eigvecs, t.problem, t.order, decide (t.problem.nr > t.problem.nc)⟩ (k := num) z1 hnum hO
    (fun ho => ritz_pos _ _ b.eigvals.get hX hR (hrank ho))
  have hdec : t.decompose eig R num =
      .ok ⟨b.eigvals, b.eigvecs, t.problem, t.order, decide (t.problem.nr > t.problem.nc)⟩ := by
    unfold TruncatedSvd.decompose
    rw [if_neg (by omega), show min t.problem.nr t.problem.nc = m by rw [hp.1, hp.2]; omega]
    simp only
    rw [h, ok_bind]
    rcases hb with rfl | ⟨e, rfl⟩ <;> rfl
  obtain ⟨w, hw, sw, ew⟩ := selectCols_range b.eigvecs se hr
  obtain ⟨z, hz, sz⟩ := dot_shape hp sw
  have ez := (dot_mat hz hp sw).2
  let s : Arr1 ℝ := ⟨r, fun j => ((List.range r).map fun i => Real.sqrt (b.eigvals.get i)).getD j 0⟩
  have hs : ∀ j < r, s.get j = Real.sqrt (b.eigvals.get j) := by
    intro j hj
    simp only [s]
    rw [List.getD_eq_getElem?_getD, List.getElem?_eq_getElem (by simpa using hj)]
    simp
  have hlist : ((List.range r).map fun i => (Real.sqrt (b.eigvals.get i), i)).map Prod.snd = List.range r := by
    rw [List.map_map]
    exact List.map_id _
  have hvals : (⟨((List.range r).map fun i => (Real.sqrt (b.eigvals.get i), i)).length, fun i =>
      (((List.range r).map fun i => (Real.sqrt (b.eigvals.get i), i)).map Prod.fst).getD i 0⟩ : Arr1 ℝ) = s := by
    simp only [s, List.map_map, List.length_map, List.length_range]
    rfl
  refine ⟨_, r, divideCols z s, s, w.t, hdec, ?_, ?_, rfl, ⟨sz.1, sz.2⟩, ⟨sw.2, sw.1⟩, ?_, hr, ew⟩
  · unfold TruncatedSvdResult.valuesVectors
    rw [hv, ok_bind]
    simp only
    rw [hvals, hlist, if_pos (by rw [hp.1, hp.2]; exact decide_eq_true hnm), hw, ok_bind, hz, ok_bind]
  · unfold TruncatedSvdResult.values
    rw [hv, ok_bind, hvals]
  · have et : (toMat r m w.t)ᵀ = toMat m r w := by ext i j; rfl
    rw [et]
    refine ritzTriples_of_run _ he hA hx0 h hcond b hb hr k1 k2 k3 _ ew _ ?_ _ hs
    rw [divideCols_mat z s rfl, ez]
    congr 2
    funext i
    rw [hs i i.2]

/-- **C74**, more rows than columns: `TruncatedSvd::decompose` followed by `values_vectors` returns Ritz
triples of the matrix. Exact arithmetic, exact eigensolver for the small problems, Gram matrices without
eigenvalues below `1e-10`; every matrix (for `Order::Smallest` with independent columns, since the code
divides by the values), every random start, precision and number of iterations, converged or not. -/
theorem C74_tall (hc : 0 < (NdFloat.epsilon : ℝ) * MagnitudeCorrection.correction)
    (hc1 : (NdFloat.epsilon : ℝ) * MagnitudeCorrection.correction < 1) {ρ : Type} {n m num : Nat}
    {eig : EigSolver ℝ} (he : EigWithin 0 eig) (R : RandomSource ℝ ρ) (t : TruncatedSvd ℝ ρ)
    (hp : HasShape t.problem n m) (hnm : n > m) (hnum : 1 ≤ num) (res : LobpcgResult ℝ)
    (hist : List (Iterate ℝ))
    (h : lobpcgRun eig t.params (R.random m num t.rng).1 t.maxiter = .ok (res, hist))
    (hcond : ∀ it ∈ hist, ∀ C, it.gram = some C → WellConditioned condFloor C) (b : Lobpcg ℝ)
    (hb : Returned res b)
    (hrank : t.order = .smallest → ∀ x, (toMat n m t.problem).mulVec x = 0 → x = 0) :
    ∃ (out : TruncatedSvdResult ℝ) (r : Nat) (u : Arr2 ℝ) (s : Arr1 ℝ) (vt : Arr2 ℝ),
      t.decompose eig R num = .ok out ∧ out.valuesVectors = .ok (u, s, vt) ∧ out.values = .ok s ∧
      s.len = r ∧ HasShape u n r ∧ HasShape vt r m ∧
      RitzTriples t.order num (toMat n m t.problem) (toMat n r u) s.get (toMat r m vt)ᵀ b.eigvals.get := by
  obtain ⟨out, r, u, s, vt, h1, h2, h3, h4, h5, h6, h7, -⟩ := tall_triples hc hc1 he R t hp hnm hnum res hist h hcond b hb hrank
  exact ⟨out, r, u, s, vt, h1, h2, h3, h4, h5, h6, h7⟩

/-- C74 together with where the left singular vectors come from. -/
theorem wide_triples (hc : 0 < (NdFloat.epsilon : ℝ) * MagnitudeCorrection.correction)
    (hc1 : (NdFloat.epsilon : ℝ) * MagnitudeCorrection.correction < 1) {ρ : Type} {n m num : Nat}
    {eig : EigSolver ℝ} (he : EigWithin 0 eig) (R : RandomSource ℝ ρ) (t : TruncatedSvd ℝ ρ)
    (hp : HasShape t.problem n m) (hnm : n ≤ m) (hnum : 1 ≤ num) (res : LobpcgResult ℝ)
    (hist : List (Iterate ℝ))
    (h : lobpcgRun eig t.params (R.random n num t.rng).1 t.maxiter = .ok (res, hist))
    (hcond : ∀ it ∈ hist, ∀ C, it.gram = some C → WellConditioned condFloor C) (b : Lobpcg ℝ)
    (hb : Returned res b)
    (hrank : t.order = .smallest → ∀ x, (toMat n m t.problem)ᵀ.mulVec x = 0 → x = 0) :
    ∃ (out : TruncatedSvdResult ℝ) (r : Nat) (u : Arr2 ℝ) (s : Arr1 ℝ) (vt : Arr2 ℝ),
      t.decompose eig R num = .ok out ∧ out.valuesVectors = .ok (u, s, vt) ∧ out.values = .ok s ∧
      s.len = r ∧ HasShape u n r ∧ HasShape vt r m ∧
      RitzTriples t.order num (toMat n m t.problem)ᵀ (toMat r m vt)ᵀ s.get (toMat n r u) b.eigvals.get ∧
      ∃ hr : r ≤ num, toMat n r u = (toMat n num b.eigvecs).submatrix id (Fin.castLE hr) := by
  have hx0 : HasShape (R.random n num t.rng).1 n num := ⟨rfl, rfl⟩
  have hA : IsOperator ((toMat n m t.problem)ᵀᵀ * (toMat n m t.problem)ᵀ) t.params := by
    rw [transpose_transpose]
    exact t.isOperator_wide hp hnm
  have hsym := isSymm_gram (toMat n m t.problem)ᵀ
  obtain ⟨z1, z2, z3, -⟩ := C48_shapes eig t.params _ t.maxiter res hist h b hb
  have se : HasShape b.eigvecs n num := ⟨z2, z3⟩
  have hX := C45_returned_partial hsym he hA hx0 h hcond b hb
  obtain ⟨hR, hO⟩ := C57_ritz_values hsym he hA hx0 h b hb
  obtain ⟨r, hr, hv, k1, k2, k3⟩ := selected_prefix hc hc1
    ⟨b.eigvals, b.eigvecs, t.problem, t.order, decide (t.problem.nr > t.problem.nc)⟩ (k := num) z1 hnum hO
    (fun ho => ritz_pos _ _ b.eigvals.get hX hR (hrank ho))
  have hdec : t.decompose eig R num =
      .ok ⟨b.eigvals, b.eigvecs, t.problem, t.order, decide (t.problem.nr > t.problem.nc)⟩ := by
    unfold TruncatedSvd.decompose
    rw [if_neg (by omega), show min t.problem.nr t.problem.nc = n by rw [hp.1, hp.2]; omega]
    simp only
    rw [h, ok_bind]
    rcases hb with rfl | ⟨e, rfl⟩ <;> rfl
  obtain ⟨w, hw, sw, ew⟩ := selectCols_range b.eigvecs se hr
  have hpt : HasShape t.problem.t m n := shape_t hp
  obtain ⟨z, hz, sz⟩ := dot_shape hpt sw
  have ez := (dot_mat hz hpt sw).2
  let s : Arr1 ℝ := ⟨r, fun j => ((List.range r).map fun i => Real.sqrt (b.eigvals.get i)).getD j 0⟩
  have hs : ∀ j < r, s.get j = Real.sqrt (b.eigvals.get j) := by
    intro j hj
    simp only [s]
    rw [List.getD_eq_getElem?_getD, List.getElem?_eq_getElem (by simpa using hj)]
    simp
  have hlist : ((List.range r).map fun i => (Real.sqrt (b.eigvals.get i), i)).map Prod.snd = List.range r := by
    rw [List.map_map]
    exact List.map_id _
  have hvals : (⟨((List.range r).map fun i => (Real.sqrt (b.eigvals.get i), i)).length, fun i =>
      (((List.range r).map fun i => (Real.sqrt (b.eigvals.get i), i)).map Prod.fst).getD i 0⟩ : Arr1 ℝ) = s := by
    simp only [s, List.map_map, List.length_map, List.length_range]
    rfl
  refine ⟨_, r, w, s, (divideCols z s).t, hdec, ?_, ?_, rfl, sw, ⟨sz.2, sz.1⟩, ?_, hr, ew⟩
  · unfold TruncatedSvdResult.valuesVectors
    rw [hv, ok_bind]
    simp only
    rw [hvals, hlist, if_neg (by rw [hp.1, hp.2]; simpa using hnm), hw, ok_bind, hz, ok_bind]
  · unfold TruncatedSvdResult.values
    rw [hv, ok_bind, hvals]
  · have et : (toMat r m (divideCols z s).t)ᵀ = toMat m r (divideCols z s) := by ext i j; rfl
    rw [et]
    refine ritzTriples_of_run _ he hA hx0 h hcond b hb hr k1 k2 k3 _ ew _ ?_ _ hs
    rw [divideCols_mat z s rfl, ez]
    have : toMat m n t.problem.t = (toMat n m t.problem)ᵀ := by ext i j; rfl
    rw [this]
    congr 2
    funext i
    rw [hs i i.2]

/-- **C74**, at least as many columns as rows: the same, with the sides exchanged. -/
theorem C74_wide (hc : 0 < (NdFloat.epsilon : ℝ) * MagnitudeCorrection.correction)
    (hc1 : (NdFloat.epsilon : ℝ) * MagnitudeCorrection.correction < 1) {ρ : Type} {n m num : Nat}
    {eig : EigSolver ℝ} (he : EigWithin 0 eig) (R : RandomSource ℝ ρ) (t : TruncatedSvd ℝ ρ)
    (hp : HasShape t.problem n m) (hnm : n ≤ m) (hnum : 1 ≤ num) (res : LobpcgResult ℝ)
    (hist : List (Iterate ℝ))
    (h : lobpcgRun eig t.params (R.random n num t.rng).1 t.maxiter = .ok (res, hist))
    (hcond : ∀ it ∈ hist, ∀ C, it.gram = some C → WellConditioned condFloor C) (b : Lobpcg ℝ)
    (hb : Returned res b)
    (hrank : t.order = .smallest → ∀ x, (toMat n m t.problem)ᵀ.mulVec x = 0 → x = 0) :
    ∃ (out : TruncatedSvdResult ℝ) (r : Nat) (u : Arr2 ℝ) (s : Arr1 ℝ) (vt : Arr2 ℝ),
      t.decompose eig R num = .ok out ∧ out.valuesVectors = .ok (u, s, vt) ∧ out.values = .ok s ∧
      s.len = r ∧ HasShape u n r ∧ HasShape vt r m ∧
      RitzTriples t.order num (toMat n m t.problem)ᵀ (toMat r m vt)ᵀ s.get (toMat n r u) b.eigvals.get := by
  obtain ⟨out, r, u, s, vt, h1, h2, h3, h4, h5, h6, h7, -⟩ := wide_triples hc hc1 he R t hp hnm hnum res hist h hcond b hb hrank
  exact ⟨out, r, u, s, vt, h1, h2, h3, h4, h5, h6, h7⟩

end

/-- A tall problem: `diag(1, 2)` with a zero row, random start `(1, 1)`, one iteration, precision `0`. -/
noncomputable def tallProblem (order : Order) : TruncatedSvd ℝ Unit :=
  { order := order, problem := ofRows 3 2 [[1, 0], [0, 2], [0, 0]], precision := 0, maxiter := 1, rng := () }

/-- The hypotheses of C74 are met, for both orders. -/
theorem tall_run (order : Order) : ∃ b hist,
    lobpcgRun exactEig (tallProblem order).params
      ((⟨fun _ _ s => (fun _ _ => 1, s)⟩ : RandomSource ℝ Unit).random 2 1 ()).1 1 = .ok (.ok b, hist) ∧
    (∀ it ∈ hist, ∀ C, it.gram = some C → WellConditioned condFloor C) ∧
    ∀ x, (toMat 3 2 (tallProblem order).problem).mulVec x = 0 → x = 0 := by
  have hp : HasShape (tallProblem order).problem 3 2 := ⟨rfl, rfl⟩
  have hA := (tallProblem order).isOperator_tall hp (by norm_num)
  have hsym := isSymm_gram (toMat 3 2 (tallProblem order).problem)
  set x0 := ((⟨fun _ _ s => (fun _ _ => 1, s)⟩ : RandomSource ℝ Unit).random 2 1 ()).1 with hx
  have hx0 : HasShape x0 2 1 := ⟨rfl, rfl⟩
  have htot : ParamsTotal 2 (tallProblem order).params := by
    refine ⟨fun _ y k hy => ?_, fun y _ hy => ⟨y, rfl, hy⟩⟩
    obtain ⟨z, h1, s1⟩ := dot_shape hp hy
    obtain ⟨w, h2, s2⟩ := dot_shape (shape_t hp) s1
    refine ⟨w, ?_, s2⟩
    simp only [TruncatedSvd.params]
    rw [if_pos (by rw [hp.1, hp.2]; norm_num), h1, ok_bind, h2]
  have hnf : lobpcgRun exactEig (tallProblem order).params x0 1 ≠ .error .fuel := by
    refine C43_terminates _ _ _ _ (fun a h => ?_) (fun k v h => ?_) (fun v h => by cases h)
    · obtain ⟨v, q, h1, -⟩ := exactEig_ok a
      rw [h1] at h; cases h
    · simp only [TruncatedSvd.params, Arr2.dot] at h
      split_ifs at h <;> simp [bind, Except.bind] at h
  obtain ⟨⟨res, hist⟩, h⟩ : ∃ r, lobpcgRun exactEig (tallProblem order).params x0 1 = .ok r := by
    rcases (lobpcgRun_total exactEig_total htot hx0 le_rfl (fun y h => by cases h) 1).cases with
      ⟨r, h, -⟩ | h
    · exact ⟨r, h⟩
    · exact absurd h hnf
  have hlen := C43_iteration_bound exactEig _ _ 1 res hist h
  have hgr := gram_two hsym exactEig_within.1 hA hx0 h
  have hc : ∀ it ∈ hist, ∀ B, it.gram = some B → WellConditioned condFloor B := by
    intro it hit B hB
    obtain ⟨i, hi, rfl⟩ := List.mem_iff_getElem.1 hit
    have hi2 : i < 2 := by
      have : hist.length ≤ 2 := hlen
      omega
    rcases i with _ | _ | i
    · have := hgr.1 _ (List.getElem?_eq_getElem hi)
      rw [this] at hB; cases hB
    · obtain ⟨B', h1, h2⟩ := hgr.2 _ (List.getElem?_eq_getElem hi)
      rw [h1, Option.some.injEq] at hB
      subst hB
      exact wellConditioned_one h2
    · omega
  obtain ⟨b, rfl⟩ := C62_single_vector hsym exactEig_within exactEig_total htot hA
    rfl (M := 1) (fun y z k hy hz => by injection hz with hz; rw [hz, Matrix.one_mul])
    (fun x hx => by
      rw [Matrix.one_mulVec]
      exact lt_of_le_of_ne (Finset.sum_nonneg fun i _ => mul_self_nonneg _)
        (fun h => hx (dotProduct_self_eq_zero.1 h.symm)))
    (by simp [TruncatedSvd.params, tallProblem]) hx0 ⟨0, by simp [hx, RandomSource.random]⟩ h hc
  refine ⟨b, hist, h, hc, fun x hx => ?_⟩
  have h0 := congrFun hx 0
  have h1 := congrFun hx 1
  simp [tallProblem, toMat, mulVec, dotProduct, ofRows, Fin.sum_univ_two] at h0 h1
  funext i
  fin_cases i
  · exact h0
  · exact h1

end LinfaLinalg
