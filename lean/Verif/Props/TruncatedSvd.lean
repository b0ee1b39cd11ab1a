import Verif.Props.Iterator
import Verif.Model.TruncatedSvd

/-! # C53, C54, C55: `decompose(0)` and the truncated singular value decomposition -/

set_option linter.unusedSectionVars false

namespace LinfaLinalg

open Matrix

section

variable {α ρ : Type} [Zero α] [One α] [Add α] [Sub α] [Mul α] [Div α] [Neg α] [NdFloat α]
  [MagnitudeCorrection α]

/-- What the singular values with their indices have to be: the indices `idx` name each eigenvalue with
`keep` once, in the order of a stable sort. -/
structure SelectedBy (order : Order) (v : Arr1 α) (keep : α → Prop) (idx : List Nat) : Prop where
  nodup : idx.Nodup
  mem : ∀ i, i ∈ idx ↔ i < v.len ∧ keep (v.get i)
  sorted : idx.Pairwise fun i j => InOrder order (v.get i) (v.get j) ∧
    (InOrder order (v.get j) (v.get i) → i < j)

/-- The enumerated eigenvalues after `sort_by`. -/
theorem sorted_indices [LawfulLe α] (vals : Arr1 α) (h : NaNFree vals) (order : Order) :
    ∃ idx : List Nat, sortBy Prod.snd order vals.enumerate = .ok (idx.map fun i => (i, vals.get i)) ∧
      SelectedBy order vals (fun _ => True) idx := by
  obtain ⟨l, σ, h1, hσ, hl, hget⟩ := sortBy_enumerate vals h order
  have hlt : ∀ i (hi : i < l.length), l[i] = ((σ ⟨i, hl ▸ hi⟩ : Nat), vals.get (σ ⟨i, hl ▸ hi⟩)) := by
    intro i hi
    have := hget ⟨i, hl ▸ hi⟩
    rw [List.getElem?_eq_getElem hi] at this
    exact Option.some.inj this
  refine ⟨l.map Prod.fst, ?_, ?_, ?_, ?_⟩
  · rw [h1]
    congr 1
    apply List.ext_getElem
    · simp
    · intro i hi _
      simp [hlt i hi]
  · rw [List.nodup_iff_injective_get]
    rintro ⟨i, hi⟩ ⟨j, hj⟩ hij
    have hi' : i < l.length := by simpa using hi
    have hj' : j < l.length := by simpa using hj
    simp only [List.get_eq_getElem, List.getElem_map, hlt i hi', hlt j hj'] at hij
    have := σ.injective (Fin.ext hij)
    simpa using this
  · intro i
    constructor
    · intro hi
      obtain ⟨j, hj, rfl⟩ := List.mem_iff_getElem.1 hi
      have hj' : j < l.length := by simpa using hj
      simp only [List.getElem_map, hlt j hj', and_true]
      exact (σ _).2
    · rintro ⟨hi, -⟩
      have hj : ((σ.symm ⟨i, hi⟩ : Fin vals.len) : Nat) < l.length := by rw [hl]; exact Fin.is_lt _
      refine List.mem_iff_getElem.2 ⟨_, by simpa using hj, ?_⟩
      simp [hlt _ hj]
  · rw [List.pairwise_iff_getElem]
    intro i j hi hj hij
    have hi' : i < l.length := by simpa using hi
    have hj' : j < l.length := by simpa using hj
    simp only [List.getElem_map, hlt i hi', hlt j hj']
    exact ⟨hσ.sorted _ _ hij, fun h => hσ.stable _ _ hij h⟩

/-- **C54**, `Order::Largest`: exactly the eigenvalues above the cut-off are kept, sorted in descending
order, and their square roots are returned with their indices. -/
theorem C54_largest [LawfulLe α] (t : TruncatedSvdResult α) (ho : t.order = .largest)
    (hnan : NaNFree t.eigvals) (hne : 0 < t.eigvals.len) :
    ∃ (top : Nat) (idx : List Nat), top < t.eigvals.len ∧
      (∀ i < t.eigvals.len, NdFloat.le (t.eigvals.get i) (t.eigvals.get top) = true) ∧
      SelectedBy .largest t.eigvals (fun x =>
        NdFloat.lt (NdFloat.epsilon * MagnitudeCorrection.correction * t.eigvals.get top) x = true) idx ∧
      t.valuesWithIndices = .ok (idx.map fun i => (NdFloat.sqrt (t.eigvals.get i), i)) ∧
      t.values = .ok ⟨idx.length, fun j => (idx.map fun i => NdFloat.sqrt (t.eigvals.get i)).getD j 0⟩ := by
  obtain ⟨idx, h1, hs⟩ := sorted_indices t.eigvals hnan .largest
  cases hidx : idx with
  | nil =>
    have := (hs.mem 0).2 ⟨hne, trivial⟩
    rw [hidx] at this
    cases this
  | cons top rest =>
    have htop := ((hs.mem top).1 (by rw [hidx]; simp)).1
    have hv : t.valuesWithIndices = .ok (((top :: rest).filter fun i =>
        NdFloat.lt (NdFloat.epsilon * MagnitudeCorrection.correction * t.eigvals.get top)
          (t.eigvals.get i)).map fun i => (NdFloat.sqrt (t.eigvals.get i), i)) := by
      unfold TruncatedSvdResult.valuesWithIndices
      rw [ho]
      simp only
      rw [h1, ok_bind, hidx]
      simp only [List.map_cons]
      rw [← List.map_cons (f := fun i => (i, t.eigvals.get i)), List.filter_map, List.map_map]
      rfl
    refine ⟨top, (top :: rest).filter fun i =>
        NdFloat.lt (NdFloat.epsilon * MagnitudeCorrection.correction * t.eigvals.get top)
          (t.eigvals.get i), htop, ?_, ⟨?_, ?_, ?_⟩, hv, ?_⟩
    · intro i hi
      have hm := (hs.mem i).2 ⟨hi, trivial⟩
      rw [hidx] at hm
      rcases List.mem_cons.1 hm with rfl | hm
      · exact hnan _ hi
      · have := hs.sorted
        rw [hidx, List.pairwise_cons] at this
        exact (this.1 i hm).1
    · rw [← hidx]
      exact hs.nodup.filter _
    · intro i
      rw [List.mem_filter, ← hidx, hs.mem]
      simp
    · rw [← hidx]
      exact hs.sorted.filter _
    · unfold TruncatedSvdResult.values
      rw [hv, ok_bind]
      simp only [List.map_map, List.length_map]
      rfl

/-- **C54**, `Order::Smallest`: nothing is dropped, and the order is ascending. -/
theorem C54_smallest [LawfulLe α] (t : TruncatedSvdResult α) (ho : t.order = .smallest)
    (hnan : NaNFree t.eigvals) :
    ∃ idx : List Nat, SelectedBy .smallest t.eigvals (fun _ => True) idx ∧
      t.valuesWithIndices = .ok (idx.map fun i => (NdFloat.sqrt (t.eigvals.get i), i)) ∧
      t.values = .ok ⟨idx.length, fun j => (idx.map fun i => NdFloat.sqrt (t.eigvals.get i)).getD j 0⟩ := by
  obtain ⟨idx, h1, hs⟩ := sorted_indices t.eigvals hnan .smallest
  have hv : t.valuesWithIndices = .ok (idx.map fun i => (NdFloat.sqrt (t.eigvals.get i), i)) := by
    unfold TruncatedSvdResult.valuesWithIndices
    rw [ho]
    simp only
    rw [h1, ok_bind, List.map_map]
    rfl
  refine ⟨idx, hs, hv, ?_⟩
  unfold TruncatedSvdResult.values
  rw [hv, ok_bind]
  simp only [List.map_map, List.length_map]
  rfl

/-- C54, `NaN`: two or more eigenvalues with a `NaN` among them make `values()` and `values_vectors()`
panic. -/
theorem C54_nan_panics (t : TruncatedSvdResult α) (hnan : ¬ NaNFree t.eigvals)
    (h2 : 2 ≤ t.eigvals.len) : t.values = .error .panic ∧ t.valuesVectors = .error .panic := by
  have hv : t.valuesWithIndices = .error .panic := by
    unfold TruncatedSvdResult.valuesWithIndices
    cases t.order <;> simp only <;> rw [sortBy_nan _ hnan h2, error_bind]
  unfold TruncatedSvdResult.values TruncatedSvdResult.valuesVectors
  rw [hv, error_bind, error_bind]
  exact ⟨rfl, rfl⟩

/-- C53, the part that holds: `decompose(0)` returns an empty solution without looking at the problem,
the solver or the random numbers; for `Order::Smallest`, `values()` and `values_vectors()` of it are
empty. Missing: `values()` for `Order::Largest`, which panics, see `C53_values_panics`. -/
theorem C53_decompose_zero_partial (eig : EigSolver α) (R : RandomSource α ρ) :
    (∀ t : TruncatedEig α ρ, ∃ b, t.decompose eig R 0 = .ok (.ok b, t) ∧ b.eigvals.len = 0 ∧
      b.eigvecs.nc = 0 ∧ b.rnorm = []) ∧
    (∀ t : TruncatedSvd α ρ, ∃ r, t.decompose eig R 0 = .ok r ∧ r.eigvals.len = 0 ∧
      HasShape r.eigvecs 0 0 ∧ (t.order = .smallest →
        (∃ s, r.values = .ok s ∧ s.len = 0) ∧
        ∃ u s vt, r.valuesVectors = .ok (u, s, vt) ∧ s.len = 0 ∧ HasShape u 0 0 ∧ HasShape vt 0 0)) := by
  refine ⟨fun t => ⟨_, rfl, rfl, rfl, rfl⟩, fun t => ⟨_, rfl, rfl, ⟨rfl, rfl⟩, fun ho => ?_⟩⟩
  rw [ho]
  exact ⟨⟨_, rfl, rfl⟩, _, _, _, rfl, rfl, ⟨rfl, rfl⟩, ⟨rfl, rfl⟩⟩

/-- **C53** does not hold for `Order::Largest`: `values()` and `values_vectors()` of the empty solution
panic on `a[0]`. -/
theorem C53_values_panics (eig : EigSolver α) (R : RandomSource α ρ) (t : TruncatedSvd α ρ)
    (ho : t.order = .largest) : ∃ r, t.decompose eig R 0 = .ok r ∧ r.values = .error .panic ∧
      r.valuesVectors = .error .panic := by
  refine ⟨⟨Arr1.zeros 0, Arr2.zeros 0 0, Arr2.zeros 0 0, .largest, false⟩, ?_, rfl, rfl⟩
  unfold TruncatedSvd.decompose
  rw [if_pos rfl, ho]

end

/-- The correction for `f64`, `/repo/src/lobpcg/svd.rs:259-263`, as a real number. -/
noncomputable def correctionF64 : MagnitudeCorrection ℝ := ⟨10 ^ 6⟩

/-- The correction times the machine precision is in the range that the theorems below ask for. -/
theorem correctionF64_range : 0 < (NdFloat.epsilon : ℝ) * correctionF64.correction ∧
    (NdFloat.epsilon : ℝ) * correctionF64.correction < 1 := by
  change 0 < (2 : ℝ)⁻¹ ^ 52 * 10 ^ 6 ∧ (2 : ℝ)⁻¹ ^ 52 * 10 ^ 6 < 1
  norm_num

section

variable [MagnitudeCorrection ℝ]

/-- The kept eigenvalues are positive for `Order::Largest`. -/
theorem kept_pos (hc : 0 < (NdFloat.epsilon : ℝ) * MagnitudeCorrection.correction)
    (hc1 : (NdFloat.epsilon : ℝ) * MagnitudeCorrection.correction < 1) {top x : ℝ} (hx : x ≤ top)
    (h : NdFloat.epsilon * MagnitudeCorrection.correction * top < x) : 0 < x := by
  by_contra hn
  have hn := not_lt.1 hn
  rcases le_or_gt top 0 with ht | ht
  · have : top ≤ NdFloat.epsilon * MagnitudeCorrection.correction * top := by nlinarith
    linarith
  · have := mul_pos hc ht
    linarith

/-- **C54** in exact arithmetic: for `Order::Largest` the singular values are positive and in descending
order, each is the square root of an eigenvalue above the cut-off, and every such eigenvalue is there. -/
theorem C54_largest_real (hc : 0 < (NdFloat.epsilon : ℝ) * MagnitudeCorrection.correction)
    (hc1 : (NdFloat.epsilon : ℝ) * MagnitudeCorrection.correction < 1) (t : TruncatedSvdResult ℝ)
    (ho : t.order = .largest) (hne : 0 < t.eigvals.len) :
    ∃ (s : Arr1 ℝ) (top : ℝ), t.values = .ok s ∧
      (∃ i < t.eigvals.len, top = t.eigvals.get i) ∧ (∀ i < t.eigvals.len, t.eigvals.get i ≤ top) ∧
      (∀ i j, i ≤ j → j < s.len → s.get j ≤ s.get i) ∧
      (∀ j < s.len, 0 < s.get j ∧ ∃ i < t.eigvals.len, s.get j = Real.sqrt (t.eigvals.get i) ∧
        NdFloat.epsilon * MagnitudeCorrection.correction * top < t.eigvals.get i) ∧
      ∀ i < t.eigvals.len, NdFloat.epsilon * MagnitudeCorrection.correction * top < t.eigvals.get i →
        ∃ j < s.len, s.get j = Real.sqrt (t.eigvals.get i) := by
  obtain ⟨top, idx, htop, hmax, hs, -, hv⟩ := C54_largest t ho (NaNFree.real _) hne
  simp only [real_le, real_lt, decide_eq_true_eq] at hmax hs
  have hget : ∀ j (hj : j < idx.length),
      (idx.map fun i => NdFloat.sqrt (t.eigvals.get i)).getD j 0 = Real.sqrt (t.eigvals.get idx[j]) := by
    intro j hj
    rw [List.getD_eq_getElem?_getD, List.getElem?_eq_getElem (by simpa using hj)]
    simp
  refine ⟨_, t.eigvals.get top, hv, ⟨top, htop, rfl⟩, hmax, ?_, ?_, ?_⟩
  · intro i j hij hj
    simp only at hj ⊢
    rw [hget j hj, hget i (by omega)]
    rcases eq_or_lt_of_le hij with rfl | hlt
    · exact le_rfl
    · have := (List.pairwise_iff_getElem.1 hs.sorted i j (by omega) hj hlt).1
      simp only [InOrder, real_le, decide_eq_true_eq] at this
      exact Real.sqrt_le_sqrt this
  · intro j hj
    simp only at hj ⊢
    obtain ⟨h1, h2⟩ := (hs.mem idx[j]).1 (List.getElem_mem hj)
    rw [hget j hj]
    exact ⟨Real.sqrt_pos.2 (kept_pos hc hc1 (hmax _ h1) h2), _, h1, rfl, h2⟩
  · intro i hi hcut
    obtain ⟨j, hj, e⟩ := List.mem_iff_getElem.1 ((hs.mem i).2 ⟨hi, hcut⟩)
    refine ⟨j, hj, ?_⟩
    simp only
    rw [hget j hj, e]

/-- The hypotheses are met: three eigenvalues of which one is dropped. -/
example : 0 < (NdFloat.epsilon : ℝ) * correctionF64.correction ∧
    (NdFloat.epsilon : ℝ) * correctionF64.correction < 1 ∧
    ∃ t : TruncatedSvdResult ℝ, t.order = .largest ∧ t.eigvals.len = 3 ∧ t.eigvals.get 0 = 0 ∧
      t.eigvals.get 1 = 4 ∧ t.eigvals.get 2 = 9 :=
  ⟨correctionF64_range.1, correctionF64_range.2,
    ⟨⟨3, fun i => if i = 0 then 0 else if i = 1 then 4 else 9⟩, Arr2.zeros 3 3, Arr2.zeros 3 3,
      .largest, false⟩, rfl, rfl, by simp, by simp, by simp⟩

/-- Left singular vectors from eigenpairs of the Gram matrix. -/
theorem gram_triples {p q r : Nat} (B : Matrix (Fin p) (Fin q) ℝ) (V : Matrix (Fin q) (Fin r) ℝ)
    (s : Fin r → ℝ) (hs : ∀ i, 0 < s i) (hV : Vᵀ * V = 1)
    (hG : Bᵀ * B * V = V * diagonal (fun i => s i * s i)) (U : Matrix (Fin p) (Fin r) ℝ)
    (hU : U = B * V * diagonal fun i => (s i)⁻¹) :
    Uᵀ * U = 1 ∧ B * V = U * diagonal s ∧ Bᵀ * U = V * diagonal s := by
  have hd : diagonal (fun i => s i * s i) * diagonal (fun i => (s i)⁻¹) = diagonal s := by
    rw [diagonal_mul_diagonal]
    congr 1
    funext i
    have := (hs i).ne'
    field_simp
  have hBU : Bᵀ * U = V * diagonal s := by
    rw [hU, ← Matrix.mul_assoc, ← Matrix.mul_assoc, hG, Matrix.mul_assoc, hd]
  refine ⟨?_, ?_, hBU⟩
  · have : Uᵀ * U = diagonal (fun i => (s i)⁻¹) * Vᵀ * (Bᵀ * U) := by
      conv_lhs => rw [show Uᵀ = diagonal (fun i => (s i)⁻¹) * Vᵀ * Bᵀ by
        rw [hU, transpose_mul, transpose_mul, diagonal_transpose, ← Matrix.mul_assoc]]
      rw [Matrix.mul_assoc]
    rw [this, hBU, Matrix.mul_assoc, ← Matrix.mul_assoc Vᵀ, hV, Matrix.one_mul,
      diagonal_mul_diagonal, ← diagonal_one]
    congr 1
    funext i
    exact inv_mul_cancel₀ (hs i).ne'
  · rw [hU, Matrix.mul_assoc _ (diagonal _), diagonal_mul_diagonal]
    have : (fun i => (s i)⁻¹ * s i) = fun _ : Fin r => (1 : ℝ) :=
      funext fun i => inv_mul_cancel₀ (hs i).ne'
    rw [this, diagonal_one, Matrix.mul_one]

/-- `divideCols` as a matrix product. -/
theorem divideCols_mat {n r : Nat} (a : Arr2 ℝ) (s : Arr1 ℝ) (hs : s.len = r) :
    toMat n r (divideCols a s) = toMat n r a * diagonal fun i : Fin r => (s.get i)⁻¹ := by
  ext i j
  rw [mul_diagonal]
  simp only [toMat, divideCols, Matrix.of_apply]
  rw [if_pos (by rw [hs]; exact j.2), div_eq_mul_inv]

/-- Choosing columns of an eigenbasis. -/
theorem select_eigenpairs {q k : Nat} (e : Arr2 ℝ) (v : Arr1 ℝ) (he : HasShape e q k)
    (G : Matrix (Fin q) (Fin q) ℝ) (hE : (toMat q k e)ᵀ * toMat q k e = 1)
    (hG : G * toMat q k e = toMat q k e * diagonal (toVec k v)) (idx : List Nat) (hn : idx.Nodup)
    (hk : ∀ i ∈ idx, i < k) : ∃ w, e.selectCols idx = .ok w ∧ HasShape w q idx.length ∧
      (toMat q idx.length w)ᵀ * toMat q idx.length w = 1 ∧
      G * toMat q idx.length w = toMat q idx.length w *
        diagonal fun j : Fin idx.length => v.get idx[j] := by
  have hk' : ∀ j : Fin idx.length, idx[j] < k := fun j => hk _ (List.getElem_mem j.2)
  refine ⟨⟨e.nr, idx.length, fun i j => e.get i (idx.getD j 0)⟩, ?_, ⟨he.1, rfl⟩, ?_, ?_⟩
  · unfold Arr2.selectCols
    rw [if_pos]
    rw [List.all_eq_true]
    intro j hj
    rw [he.2]
    exact decide_eq_true (hk j hj)
  all_goals
    have ew : toMat q idx.length (⟨e.nr, idx.length, fun i j => e.get i (idx.getD j 0)⟩ : Arr2 ℝ) =
        (toMat q k e).submatrix id fun j => ⟨idx[j], hk' j⟩ := by
      ext i j
      simp [toMat, List.getD_eq_getElem?_getD]
    rw [ew]
    ext i j
  · have := congrFun (congrFun hE ⟨idx[i], hk' i⟩) ⟨idx[j], hk' j⟩
    simp only [mul_apply, transpose_apply, submatrix_apply, id] at this ⊢
    rw [this, one_apply, one_apply]
    have h : (⟨idx[i], hk' i⟩ : Fin k) = ⟨idx[j], hk' j⟩ ↔ i = j := by
      rw [Fin.mk.injEq]
      exact (List.Nodup.getElem_inj_iff hn).trans Fin.val_inj
    simp only [h]
  · have := congrFun (congrFun hG i) ⟨idx[j], hk' j⟩
    rw [mul_diagonal] at this ⊢
    simpa [mul_apply, toVec] using this

/-- **C55**: if the eigenpairs are exact orthonormal eigenpairs of the Gram matrix (the smaller of `AᵀA`
and `AAᵀ`), `values_vectors()` returns singular triples with orthonormal `U` and `V` and positive values
in the requested order. For `Order::Smallest` no eigenvalue may be zero or less (the code divides by it). -/
theorem C55_singular_triples (hc : 0 < (NdFloat.epsilon : ℝ) * MagnitudeCorrection.correction)
    (hc1 : (NdFloat.epsilon : ℝ) * MagnitudeCorrection.correction < 1) {n m q k : Nat}
    (t : TruncatedSvdResult ℝ) (hp : HasShape t.problem n m) (hngm : t.ngm = decide (n > m))
    (hq : q = min n m) (hk : 0 < k) (hl : t.eigvals.len = k) (he : HasShape t.eigvecs q k)
    (hE : (toMat q k t.eigvecs)ᵀ * toMat q k t.eigvecs = 1)
    (htall : n > m → (toMat n q t.problem)ᵀ * toMat n q t.problem * toMat q k t.eigvecs =
      toMat q k t.eigvecs * diagonal (toVec k t.eigvals))
    (hwide : ¬ n > m → toMat q m t.problem * (toMat q m t.problem)ᵀ * toMat q k t.eigvecs =
      toMat q k t.eigvecs * diagonal (toVec k t.eigvals))
    (hpos : t.order = .smallest → ∀ i < k, 0 < t.eigvals.get i) :
    ∃ (r : Nat) (u : Arr2 ℝ) (s : Arr1 ℝ) (vt : Arr2 ℝ), t.valuesVectors = .ok (u, s, vt) ∧
      t.values = .ok s ∧ s.len = r ∧ HasShape u n r ∧ HasShape vt r m ∧
      (toMat n r u)ᵀ * toMat n r u = 1 ∧ toMat r m vt * (toMat r m vt)ᵀ = 1 ∧
      toMat n m t.problem * (toMat r m vt)ᵀ = toMat n r u * diagonal (toVec r s) ∧
      (toMat n m t.problem)ᵀ * toMat n r u = (toMat r m vt)ᵀ * diagonal (toVec r s) ∧
      (∀ j < r, 0 < s.get j) ∧
      ∀ i j, i ≤ j → j < r → InOrder t.order (s.get i) (s.get j) := by
  obtain ⟨idx, hvi, hv, hn, hmem, hsort⟩ : ∃ idx : List Nat,
      t.valuesWithIndices = .ok (idx.map fun i => (NdFloat.sqrt (t.eigvals.get i), i)) ∧
      t.values = .ok ⟨idx.length,
        fun j => (idx.map fun i => NdFloat.sqrt (t.eigvals.get i)).getD j 0⟩ ∧ idx.Nodup ∧
      (∀ i ∈ idx, i < k ∧ 0 < t.eigvals.get i) ∧
      idx.Pairwise fun i j => InOrder t.order (t.eigvals.get i) (t.eigvals.get j) := by
    cases ho : t.order with
    | largest =>
      obtain ⟨top, idx, htop, hmax, hs, h1, h2⟩ := C54_largest t ho (NaNFree.real _) (by omega)
      simp only [real_le, real_lt, decide_eq_true_eq] at hmax hs
      refine ⟨idx, h1, h2, hs.nodup, fun i hi => ?_, hs.sorted.imp fun h => h.1⟩
      obtain ⟨h3, h4⟩ := (hs.mem i).1 hi
      exact ⟨by omega, kept_pos hc hc1 (hmax i h3) h4⟩
    | smallest =>
      obtain ⟨idx, hs, h1, h2⟩ := C54_smallest t ho (NaNFree.real _)
      refine ⟨idx, h1, h2, hs.nodup, fun i hi => ?_, hs.sorted.imp fun h => h.1⟩
      obtain ⟨h3, -⟩ := (hs.mem i).1 hi
      exact ⟨by omega, hpos ho i (by omega)⟩
  set s : Arr1 ℝ := ⟨idx.length, fun j => (idx.map fun i => NdFloat.sqrt (t.eigvals.get i)).getD j 0⟩
    with hsdef
  have hget : ∀ j (hj : j < idx.length), s.get j = Real.sqrt (t.eigvals.get idx[j]) := by
    intro j hj
    simp only [hsdef]
    rw [List.getD_eq_getElem?_getD, List.getElem?_eq_getElem (by simpa using hj)]
    simp
  have hspos : ∀ j < idx.length, 0 < s.get j := by
    intro j hj
    rw [hget j hj]
    exact Real.sqrt_pos.2 (hmem _ (List.getElem_mem hj)).2
  have hsq : (fun j : Fin idx.length => t.eigvals.get idx[j]) =
      fun j : Fin idx.length => s.get j * s.get j := by
    funext j
    rw [hget j j.2]
    exact (Real.mul_self_sqrt (hmem _ (List.getElem_mem j.2)).2.le).symm
  have hord : ∀ i j, i ≤ j → j < idx.length → InOrder t.order (s.get i) (s.get j) := by
    intro i j hij hj
    rw [hget j hj, hget i (by omega)]
    rcases eq_or_lt_of_le hij with rfl | hlt
    · cases t.order <;> simp [InOrder]
    · have := List.pairwise_iff_getElem.1 hsort i j (by omega) hj hlt
      revert this
      cases t.order <;> simp only [InOrder, real_le, decide_eq_true_eq] <;>
        exact fun h => Real.sqrt_le_sqrt h
  have hvv : t.valuesVectors = (if t.ngm then do
        let vlarge ← t.eigvecs.selectCols idx
        let ularge ← t.problem.dot vlarge
        .ok (divideCols ularge s, s, vlarge.t)
      else do
        let ularge ← t.eigvecs.selectCols idx
        let vlarge ← t.problem.t.dot ularge
        .ok (ularge, s, (divideCols vlarge s).t)) := by
    unfold TruncatedSvdResult.valuesVectors
    rw [hvi, ok_bind]
    simp only [List.map_map, List.length_map]
    have e1 : (Prod.snd ∘ fun i => (NdFloat.sqrt (t.eigvals.get i), i)) = (id : Nat → Nat) := rfl
    rw [e1, List.map_id]
    rfl
  rw [hvv, hngm]
  by_cases hnm : n > m
  · have hqm : q = m := by omega
    subst hqm
    obtain ⟨w, hw, sw, ow, gw⟩ := select_eigenpairs t.eigvecs t.eigvals he _ hE (htall hnm) idx hn
      fun i hi => (hmem i hi).1
    obtain ⟨z, hz, sz⟩ := dot_shape hp sw
    have ez := (dot_mat hz hp sw).2
    rw [hsq] at gw
    obtain ⟨g1, g2, g3⟩ := gram_triples _ _ (fun j : Fin idx.length => s.get j)
      (fun j => hspos j j.2) ow gw (toMat n idx.length (divideCols z s))
      (by rw [divideCols_mat z s rfl, ez])
    refine ⟨idx.length, divideCols z s, s, w.t, ?_, hv, rfl, ⟨sz.1, sz.2⟩, ⟨sw.2, sw.1⟩, g1, ?_, ?_,
      ?_, hspos, hord⟩
    · rw [decide_eq_true hnm, if_pos rfl, hw, ok_bind, hz, ok_bind]
    all_goals
      have et : toMat idx.length q w.t = (toMat q idx.length w)ᵀ := by
        ext i j; rfl
      rw [et, transpose_transpose]
    · exact ow
    · exact g2
    · exact g3
  · have hqn : q = n := by omega
    subst hqn
    obtain ⟨w, hw, sw, ow, gw⟩ := select_eigenpairs t.eigvecs t.eigvals he _ hE (hwide hnm) idx hn
      fun i hi => (hmem i hi).1
    have hpt : HasShape t.problem.t m q := ⟨hp.2, hp.1⟩
    obtain ⟨z, hz, sz⟩ := dot_shape hpt sw
    have ez := (dot_mat hz hpt sw).2
    have et : toMat m q t.problem.t = (toMat q m t.problem)ᵀ := by
      ext i j; rfl
    rw [et] at ez
    rw [hsq] at gw
    obtain ⟨g1, g2, g3⟩ := gram_triples (toMat q m t.problem)ᵀ _ (fun j : Fin idx.length => s.get j)
      (fun j => hspos j j.2) ow (by rw [transpose_transpose]; exact gw)
      (toMat m idx.length (divideCols z s)) (by rw [divideCols_mat z s rfl, ez])
    rw [transpose_transpose] at g3
    refine ⟨idx.length, w, s, (divideCols z s).t, ?_, hv, rfl, sw, ⟨sz.2, sz.1⟩, ow, ?_, ?_, ?_,
      hspos, hord⟩
    · rw [decide_eq_false hnm, if_neg (by simp), hw, ok_bind, hz, ok_bind]
    all_goals
      have et : toMat idx.length m (divideCols z s).t = (toMat m idx.length (divideCols z s))ᵀ := by
        ext i j; rfl
      rw [et, transpose_transpose]
    · exact g1
    · exact g3
    · exact g2

/-- The hypotheses are met by a tall matrix, the column `(3, 4)`, and by the wide row `(3, 4)`. -/
example : (∃ t : TruncatedSvdResult ℝ, HasShape t.problem 2 1 ∧ t.ngm = true ∧ t.eigvals.len = 1 ∧
      HasShape t.eigvecs 1 1 ∧ (toMat 1 1 t.eigvecs)ᵀ * toMat 1 1 t.eigvecs = 1 ∧
      (toMat 2 1 t.problem)ᵀ * toMat 2 1 t.problem * toMat 1 1 t.eigvecs =
        toMat 1 1 t.eigvecs * diagonal (toVec 1 t.eigvals) ∧ t.eigvals.get 0 = 25) ∧
    ∃ t : TruncatedSvdResult ℝ, HasShape t.problem 1 2 ∧ t.ngm = false ∧ t.eigvals.len = 1 ∧
      HasShape t.eigvecs 1 1 ∧ (toMat 1 1 t.eigvecs)ᵀ * toMat 1 1 t.eigvecs = 1 ∧
      toMat 1 2 t.problem * (toMat 1 2 t.problem)ᵀ * toMat 1 1 t.eigvecs =
        toMat 1 1 t.eigvecs * diagonal (toVec 1 t.eigvals) ∧ t.eigvals.get 0 = 25 := by
  refine ⟨⟨⟨⟨1, fun _ => 25⟩, ofRows 1 1 [[1]], ofRows 2 1 [[3], [4]], .largest, true⟩, ⟨rfl, rfl⟩,
    rfl, rfl, ⟨rfl, rfl⟩, ?_, ?_, rfl⟩, ⟨⟨1, fun _ => 25⟩, ofRows 1 1 [[1]], ofRows 1 2 [[3, 4]],
    .smallest, false⟩, ⟨rfl, rfl⟩, rfl, rfl, ⟨rfl, rfl⟩, ?_, ?_, rfl⟩
  all_goals
    ext i j
    fin_cases i
    fin_cases j
    simp [mul_apply, toMat, ofRows, toVec, Fin.sum_univ_two]
    try norm_num

end

end LinfaLinalg
