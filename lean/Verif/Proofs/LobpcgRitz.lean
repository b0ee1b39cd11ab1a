import Verif.Proofs.LobpcgGram
import Verif.Proofs.Ritz

/-! # `sorted_eig` as a Rayleigh–Ritz procedure -/

set_option linter.unusedSectionVars false

namespace LinfaLinalg

open Matrix

/-- On symmetric matrices the eigensolver returns as many values as it should and an orthogonal matrix.
(`eigh_into` does: C28.) -/
def EigOrth (eig : EigSolver ℝ) : Prop :=
  ∀ (s : Nat) (a : Arr2 ℝ) (v : Arr1 ℝ) (q : Arr2 ℝ), HasShape a s s → (toMat s s a).IsSymm →
    eig a = .ok (v, q) → v.len = s ∧ HasShape q s s ∧ (toMat s s q)ᵀ * toMat s s q = 1

/-- In addition, the values belong to the columns of the orthogonal matrix, with an error of at most
`η` times the norm of the matrix. -/
def EigWithin (η : ℝ) (eig : EigSolver ℝ) : Prop :=
  EigOrth eig ∧ ∀ (s : Nat) (a : Arr2 ℝ) (v : Arr1 ℝ) (q : Arr2 ℝ), HasShape a s s →
    (toMat s s a).IsSymm → eig a = .ok (v, q) →
    frob ((toMat s s q)ᵀ * toMat s s a * toMat s s q - Matrix.diagonal fun i : Fin s => v.get i) ≤
      η * frob (toMat s s a)

/-- The scaling of the eigenvectors of the Gram matrix. -/
noncomputable def gramScale (x : ℝ) : ℝ := 1 / Real.sqrt (max x gramFloor)

theorem gramFloor_pos : (0 : ℝ) < gramFloor := by norm_num [gramFloor]

theorem gramScale_spec {x : ℝ} (h : (gramFloor : ℝ) ≤ x) :
    0 < gramScale x ∧ gramScale x * gramScale x * x = 1 := by
  have hx : 0 < x := gramFloor_pos.trans_le h
  unfold gramScale
  rw [max_eq_left h]
  have hs : 0 < Real.sqrt x := Real.sqrt_pos.2 hx
  refine ⟨by positivity, ?_⟩
  rw [div_mul_div_comm, Real.mul_self_sqrt hx.le, one_mul, one_div, inv_mul_cancel₀ hx.ne']

/-- A signed permutation of columns. -/
noncomputable def signPerm {s : Nat} (σ : Equiv.Perm (Fin s)) (sg : Fin s → ℝ) : Matrix (Fin s) (Fin s) ℝ :=
  Matrix.of fun i j => if i = σ j then sg j else 0

section
variable {s : Nat} {σ : Equiv.Perm (Fin s)} {sg : Fin s → ℝ}

theorem mul_signPerm {m : Nat} (M : Matrix (Fin m) (Fin s) ℝ) (i : Fin m) (j : Fin s) :
    (M * signPerm σ sg) i j = M i (σ j) * sg j := by
  rw [Matrix.mul_apply, Finset.sum_eq_single (σ j)]
  · simp [signPerm]
  · intro t _ ht
    simp [signPerm, ht]
  · intro h; exact absurd (Finset.mem_univ _) h

theorem signPerm_orth (hsg : ∀ j, sg j * sg j = 1) : (signPerm σ sg)ᵀ * signPerm σ sg = 1 := by
  ext i j
  rw [mul_signPerm, Matrix.transpose_apply, Matrix.one_apply]
  simp only [signPerm, Matrix.of_apply]
  by_cases h : i = j
  · subst h; simp [hsg]
  · have : ¬ σ j = σ i := fun h' => h (σ.injective h').symm
    simp [h, this]

theorem signPerm_diag (hsg : ∀ j, sg j * sg j = 1) (v : Fin s → ℝ) :
    (signPerm σ sg)ᵀ * Matrix.diagonal v * signPerm σ sg = Matrix.diagonal fun i => v (σ i) := by
  ext i j
  rw [mul_signPerm, Matrix.mul_diagonal, Matrix.transpose_apply]
  simp only [signPerm, Matrix.of_apply]
  by_cases h : i = j
  · subst h
    rw [if_pos rfl, Matrix.diagonal_apply_eq]
    calc sg i * v (σ i) * sg i = sg i * sg i * v (σ i) := by ring
      _ = _ := by rw [hsg, one_mul]
  · have : ¬ σ j = σ i := fun h' => h (σ.injective h').symm
    simp [h, this]

end

theorem sortedEig_inner {eig : EigSolver ℝ} {a : Arr2 ℝ} {b : Option (Arr2 ℝ)} {size : Nat} {order : Order}
    {r : Arr1 ℝ × Arr2 ℝ} (h : sortedEig eig a b size order = .ok r) :
    ∃ v0 q0, innerEig eig a b = .ok (v0, q0) := by
  unfold sortedEig at h
  unfold innerEig
  cases b with
  | none =>
    simp only [bind_eq_ok] at h
    obtain ⟨⟨v0, q0⟩, h1, -⟩ := h
    exact ⟨v0, q0, h1⟩
  | some b =>
    simp only [bind_eq_ok] at h
    obtain ⟨⟨v0, q0⟩, h1, -⟩ := h
    exact ⟨v0, q0, h1⟩

theorem generalizedEig_mat {s : Nat} {eig : EigSolver ℝ} (ho : EigOrth eig) {a B : Arr2 ℝ} {v0 : Arr1 ℝ}
    {q0 : Arr2 ℝ} (h : generalizedEig eig a B = .ok (v0, q0)) (sa : HasShape a s s)
    (ha : (toMat s s a).IsSymm) (sB : HasShape B s s) (hB : (toMat s s B).IsSymm) :
    ∃ (w : Arr1 ℝ) (V at_ U : Arr2 ℝ) (W : Matrix (Fin s) (Fin s) ℝ), eig B = .ok (w, V) ∧
      eig at_ = .ok (v0, U) ∧
      W = toMat s s V * Matrix.diagonal (fun i : Fin s => gramScale (w.get i)) ∧
      HasShape at_ s s ∧ (toMat s s at_).IsSymm ∧ toMat s s at_ = Wᵀ * toMat s s a * W ∧
      HasShape q0 s s ∧ toMat s s q0 = W * toMat s s U := by
  unfold generalizedEig at h
  simp only [bind_eq_ok] at h
  obtain ⟨⟨w, V⟩, h1, vt, h2, av, h3, at_, h4, ⟨v1, U⟩, h5, q1, h6, h7⟩ := h
  injection h7 with h7
  simp only [Prod.mk.injEq] at h7
  obtain ⟨rfl, rfl⟩ := h7
  obtain ⟨lw, sV, oV⟩ := ho s B w V sB hB h1
  obtain ⟨-, rfl⟩ := Arr2.scaleCols_inv h2
  have svt : HasShape (⟨V.nr, V.nc, fun i j => V.get i j * (w.map fun x =>
      1 / NdFloat.sqrt (NdFloat.max x (NdFloat.ofRat gramFloor))).get j⟩ : Arr2 ℝ) s s := sV
  obtain ⟨s3, e3⟩ := dot_mat h3 sa svt
  obtain ⟨s4, e4⟩ := tdot_mat h4 svt s3
  have hW : toMat s s (⟨V.nr, V.nc, fun i j => V.get i j * (w.map fun x =>
      1 / NdFloat.sqrt (NdFloat.max x (NdFloat.ofRat gramFloor))).get j⟩ : Arr2 ℝ) =
      toMat s s V * Matrix.diagonal (fun i : Fin s => gramScale (w.get i)) := by
    ext i j
    rw [Matrix.mul_diagonal]
    simp [toMat, Arr1.map, gramScale]
  rw [hW] at e3 e4
  rw [e3, ← Matrix.mul_assoc] at e4
  have hsym : (toMat s s at_).IsSymm := by
    rw [e4]
    generalize toMat s s V * Matrix.diagonal (fun i : Fin s => gramScale (w.get i)) = W
    rw [Matrix.IsSymm, Matrix.transpose_mul, Matrix.transpose_mul, Matrix.transpose_transpose, ha.eq,
      Matrix.mul_assoc]
  obtain ⟨lv, sU, oU⟩ := ho s at_ v1 U s4 hsym h5
  obtain ⟨s6, e6⟩ := dot_mat h6 svt sU
  rw [hW] at e6
  exact ⟨w, V, at_, U, _, h1, h5, rfl, s4, hsym, e4, s6, e6⟩

/-- The values returned are in order. -/
def Ordered (order : Order) {k : Nat} (v : Fin k → ℝ) : Prop :=
  match order with
  | .smallest => ∀ i j, i ≤ j → v i ≤ v j
  | .largest => ∀ i j, i ≤ j → v j ≤ v i

theorem stableSortPerm_ordered {order : Order} {s : Nat} {v : Nat → ℝ} {σ : Equiv.Perm (Fin s)}
    (h : StableSortPerm order s v σ) : Ordered order fun i : Fin s => v (σ i) := by
  have h1 := h.sorted
  unfold Ordered
  cases order with
  | smallest =>
    intro i j hij
    rcases eq_or_lt_of_le hij with rfl | h2
    · exact le_rfl
    · have := h1 i j h2; simpa [InOrder] using this
  | largest =>
    intro i j hij
    rcases eq_or_lt_of_le hij with rfl | h2
    · exact le_rfl
    · have := h1 i j h2; simpa [InOrder] using this

theorem Ordered.castLE {order : Order} {s k : Nat} (hks : k ≤ s) {v : Fin s → ℝ} (h : Ordered order v) :
    Ordered order fun i : Fin k => v (Fin.castLE hks i) := by
  cases order <;> exact fun i j hij => h _ _ hij

/-- `sorted_eig` for the generalized problem: before truncation, the vectors are `V D U` with `V` and `U`
orthogonal, `V` from the eigenproblem of `B` and `U` from that of `(V D)ᵀ a (V D)`. -/
theorem sortedEig_gen {s k : Nat} {eig : EigSolver ℝ} (ho : EigOrth eig) {a B : Arr2 ℝ} {lam : Arr1 ℝ}
    {vecs : Arr2 ℝ} {order : Order} (h : sortedEig eig a (some B) k order = .ok (lam, vecs))
    (sa : HasShape a s s) (ha : (toMat s s a).IsSymm) (sB : HasShape B s s) (hB : (toMat s s B).IsSymm)
    (hs : 1 ≤ s) (hks : k ≤ s) :
    ∃ (w v0 : Arr1 ℝ) (V at_ U0 : Arr2 ℝ) (L : Fin s → ℝ) (Q U W P : Matrix (Fin s) (Fin s) ℝ),
      eig B = .ok (w, V) ∧
      eig at_ = .ok (v0, U0) ∧ HasShape at_ s s ∧ (toMat s s at_).IsSymm ∧
      W = toMat s s V * Matrix.diagonal (fun i : Fin s => gramScale (w.get i)) ∧
      toMat s s at_ = Wᵀ * toMat s s a * W ∧ U = toMat s s U0 * P ∧ Pᵀ * P = 1 ∧
      Pᵀ * Matrix.diagonal (fun i : Fin s => v0.get i) * P = Matrix.diagonal L ∧ Uᵀ * U = 1 ∧
      Q = W * U ∧ toMat s k vecs = Q.submatrix id (Fin.castLE hks) ∧ Ordered order L ∧
      ∀ j : Fin k, lam.get j = L (Fin.castLE hks j) := by
  obtain ⟨v0, q0, hin⟩ := sortedEig_inner h
  obtain ⟨w, V, at_, U, W, h1, h2, rfl, s3, h3, e3, sq, eq⟩ := generalizedEig_mat ho hin sa ha sB hB
  obtain ⟨lv, sU, oU⟩ := ho s at_ v0 U s3 h3 h2
  obtain ⟨vals, vecs', σ, sg, h4, -, -, h5, h6, -, h7, h8⟩ := sortedEig_rule hin lv sq hs hks order
  rw [h] at h4
  injection h4 with h4
  simp only [Prod.mk.injEq] at h4
  obtain ⟨rfl, rfl⟩ := h4
  have oP := signPerm_orth (σ := σ) h6
  refine ⟨w, v0, V, at_, U, fun i => v0.get (σ i), _, toMat s s U * signPerm σ sg, _, signPerm σ sg, h1,
    h2, s3, h3, rfl, e3, rfl, oP, signPerm_diag h6 _, ?_, rfl, ?_, stableSortPerm_ordered h5, h7⟩
  · rw [Matrix.transpose_mul, Matrix.mul_assoc, ← Matrix.mul_assoc _ (toMat s s U), oU, Matrix.one_mul, oP]
  · ext i j
    rw [Matrix.submatrix_apply, ← Matrix.mul_assoc, ← eq, mul_signPerm]
    exact h8 i j

/-- The same for the standard problem. -/
theorem sortedEig_std {s k : Nat} {eig : EigSolver ℝ} (ho : EigOrth eig) {a : Arr2 ℝ} {lam : Arr1 ℝ}
    {vecs : Arr2 ℝ} {order : Order} (h : sortedEig eig a none k order = .ok (lam, vecs))
    (sa : HasShape a s s) (ha : (toMat s s a).IsSymm) (hs : 1 ≤ s) (hks : k ≤ s) :
    ∃ (v0 : Arr1 ℝ) (U0 : Arr2 ℝ) (L : Fin s → ℝ) (U P : Matrix (Fin s) (Fin s) ℝ),
      eig a = .ok (v0, U0) ∧ U = toMat s s U0 * P ∧ Pᵀ * P = 1 ∧
      Pᵀ * Matrix.diagonal (fun i : Fin s => v0.get i) * P = Matrix.diagonal L ∧ Uᵀ * U = 1 ∧
      toMat s k vecs = U.submatrix id (Fin.castLE hks) ∧ Ordered order L ∧
      ∀ j : Fin k, lam.get j = L (Fin.castLE hks j) := by
  obtain ⟨v0, q0, hin⟩ := sortedEig_inner h
  have hin' : eig a = .ok (v0, q0) := hin
  obtain ⟨lv, sU, oU⟩ := ho s a v0 q0 sa ha hin'
  obtain ⟨vals, vecs', σ, sg, h4, -, -, h5, h6, -, h7, h8⟩ := sortedEig_rule hin lv sU hs hks order
  rw [h] at h4
  injection h4 with h4
  simp only [Prod.mk.injEq] at h4
  obtain ⟨rfl, rfl⟩ := h4
  have oP := signPerm_orth (σ := σ) h6
  refine ⟨v0, q0, fun i => v0.get (σ i), toMat s s q0 * signPerm σ sg, signPerm σ sg, hin', rfl, oP,
    signPerm_diag h6 _, ?_, ?_, stableSortPerm_ordered h5, h7⟩
  · rw [Matrix.transpose_mul, Matrix.mul_assoc, ← Matrix.mul_assoc _ (toMat s s q0), oU, Matrix.one_mul, oP]
  · ext i j
    rw [Matrix.submatrix_apply, mul_signPerm]
    exact h8 i j

theorem submatrix_gram {n s k : Nat} (f : Fin k → Fin s) (M : Matrix (Fin n) (Fin n) ℝ)
    (Q : Matrix (Fin n) (Fin s) ℝ) :
    (Q.submatrix id f)ᵀ * M * Q.submatrix id f = (Qᵀ * M * Q).submatrix f f := by
  ext i j
  simp [Matrix.mul_apply]

/-- Truncation does not make a matrix less orthonormal. -/
theorem frob_trunc {n s k : Nat} (hks : k ≤ s) (M : Matrix (Fin n) (Fin n) ℝ)
    (Q : Matrix (Fin n) (Fin s) ℝ) :
    frob ((Q.submatrix id (Fin.castLE hks))ᵀ * M * Q.submatrix id (Fin.castLE hks) - 1) ≤
      frob (Qᵀ * M * Q - 1) := by
  rw [submatrix_gram]
  refine frob_select (Fin.castLE_injective hks) (sg := fun _ => 1) (fun _ => one_mul 1) fun i j => ?_
  rw [one_mul, mul_one, Matrix.sub_apply, Matrix.sub_apply, Matrix.submatrix_apply, Matrix.one_apply,
    Matrix.one_apply]
  simp [Fin.ext_iff]

theorem isSymm_gram {n s : Nat} (S : Matrix (Fin n) (Fin s) ℝ) : (Sᵀ * S).IsSymm := by
  rw [Matrix.IsSymm, Matrix.transpose_mul, Matrix.transpose_transpose]

theorem frob_one_sub_perm {s : Nat} (w : Fin s → ℝ) (σ : Equiv.Perm (Fin s)) :
    frob (1 - Matrix.diagonal fun i => w (σ i)) = frob (1 - Matrix.diagonal w) := by
  rw [← frob_submatrix_perm (1 - Matrix.diagonal w) σ σ]
  congr 1
  ext i j
  by_cases h : i = j
  · subst h; simp
  · have : ¬ σ i = σ j := fun h' => h (σ.injective h')
    simp [h, this]

/-- If the columns of `S` have the well conditioned Gram matrix `B`, the combinations returned by
`sorted_eig` are orthonormal, up to the error of the eigensolver on `B`. -/
theorem sortedEig_whitens {s k : Nat} {eig : EigSolver ℝ} (ho : EigOrth eig) {a B : Arr2 ℝ} {lam : Arr1 ℝ}
    {vecs : Arr2 ℝ} {order : Order} (h : sortedEig eig a (some B) k order = .ok (lam, vecs))
    (sa : HasShape a s s) (ha : (toMat s s a).IsSymm) (sB : HasShape B s s) (hB : (toMat s s B).IsSymm)
    (hs : 1 ≤ s) (hks : k ≤ s) {μ ε : ℝ} (hμ : (gramFloor : ℝ) ≤ μ)
    (hw : ∀ w V, eig B = .ok (w, V) → (∀ i : Fin s, μ ≤ w.get i) ∧
      frob ((toMat s s V)ᵀ * toMat s s B * toMat s s V - Matrix.diagonal fun i : Fin s => w.get i) ≤ ε) :
    frob ((toMat s k vecs)ᵀ * toMat s s B * toMat s k vecs - 1) ≤ ε / μ := by
  obtain ⟨w, v0, V, at_, U0, L, Q, U, W, P, h1, h2, -, -, rfl, -, -, -, -, oU, rfl, e, -, -⟩ :=
    sortedEig_gen ho h sa ha sB hB hs hks
  obtain ⟨h3, h4⟩ := hw w V h1
  rw [e]
  refine (frob_trunc hks _ _).trans ?_
  exact whiten oU (gramFloor_pos.trans_le hμ) h3 (fun i => gramScale_spec (hμ.trans (h3 i))) h4

/-- What the eigensolver says about a well conditioned matrix. -/
theorem eigWithin_lower {s : Nat} {eig : EigSolver ℝ} {η μ : ℝ} (he : EigWithin η eig) {B V : Arr2 ℝ}
    {w : Arr1 ℝ} (sB : HasShape B s s) (hB : (toMat s s B).IsSymm) (h : eig B = .ok (w, V))
    (hc : ∀ x : Fin s → ℝ, (μ + η * frob (toMat s s B)) * (x ⬝ᵥ x) ≤ x ⬝ᵥ (toMat s s B).mulVec x)
    (i : Fin s) : μ ≤ w.get i := by
  obtain ⟨-, sV, oV⟩ := he.1 s B w V sB hB h
  have h1 := he.2 s B w V sB hB h
  have h2 := (abs_le_frob _ i i).trans h1
  rw [Matrix.sub_apply, Matrix.diagonal_apply_eq] at h2
  have h3 := hc ((toMat s s V).mulVec (Pi.single i 1))
  have h4 := quad_conj (toMat s s V) (toMat s s B) (Pi.single i 1)
  have h5 := quad_conj (toMat s s V) 1 (Pi.single i 1)
  rw [Matrix.mul_one, oV, Matrix.one_mulVec, Matrix.one_mulVec] at h5
  rw [← h4, ← h5] at h3
  have h6 : ∀ M : Matrix (Fin s) (Fin s) ℝ, (Pi.single i 1 : Fin s → ℝ) ⬝ᵥ M.mulVec (Pi.single i 1) = M i i := by
    intro M
    simp
  have h7 : (Pi.single i 1 : Fin s → ℝ) ⬝ᵥ Pi.single i 1 = 1 := by simp
  rw [h6, h7, mul_one] at h3
  have := (abs_le.1 h2).2
  linarith

/-- A relation between each state at the top of the loop and the next is carried to neighbouring
iterates. -/
theorem lobpcgRun_chain {eig : EigSolver ℝ} {P : LobParams ℝ} {x0 : Arr2 ℝ} {maxiter : Nat}
    {res : LobpcgResult ℝ} {hist : List (Iterate ℝ)}
    (h : lobpcgRun eig P x0 maxiter = .ok (res, hist))
    (I : Option (Arr2 ℝ) → LobState ℝ → Prop) (Q : Iterate ℝ → Prop) (R : Iterate ℝ → Iterate ℝ → Prop)
    (hstart : ∀ c st, StartRun eig P x0 maxiter c st → I c st ∧
      ∀ m norms, Q ⟨⟨st.lambda, st.x, norms⟩, m, st.gram⟩)
    (hhead : ∀ c st st' r norms, I c st → lobHead P st = .ok (st', r, norms) → I c st')
    (htail : ∀ c st st' r norms, I c st → st.mask.count true ≠ 0 → lobResidual st = .ok (r, norms) →
      lobTail eig P c st r norms = .ok (.ok st') → I c st' ∧ ∀ norms' m',
        R ⟨⟨st.lambda, st.x, norms⟩, st.mask, st.gram⟩ ⟨⟨st'.lambda, st'.x, norms'⟩, m', st'.gram⟩) :
    hist.IsChain R ∧ ∀ it ∈ hist.head?, Q it := by
  rcases lobpcgRun_inv h with ⟨e, -, -, rfl⟩ | ⟨c, st0, st, o, b, h1, h2, -, rfl, -⟩
  · exact ⟨.nil, fun it hit => by cases hit⟩
  · obtain ⟨r, norms, ⟨-, -, -, -, hq⟩, -⟩ := lobLoop_rule (P := P) (cholYY := c) (eig := eig)
      (I := fun st => I c st ∧ (st.hist.IsChain R ∧ ∀ it ∈ st.hist.head?, Q it) ∧
        (st.hist = [] → ∀ m norms, Q ⟨⟨st.lambda, st.x, norms⟩, m, st.gram⟩) ∧
        ∀ it ∈ st.hist.getLast?, ∀ norms' m', R it ⟨⟨st.lambda, st.x, norms'⟩, m', st.gram⟩)
      (J := fun st r norms => I c st ∧ lobResidual st = .ok (r, norms) ∧
        st.hist.getLast? = some ⟨⟨st.lambda, st.x, norms⟩, st.mask, st.gram⟩ ∧
        st.blockSize = st.mask.count true ∧ (st.hist.IsChain R ∧ ∀ it ∈ st.hist.head?, Q it))
      (fun st st' r norms hI hh => by
        refine ⟨hhead c _ _ _ _ hI.1 hh, ?_⟩
        obtain ⟨hr, rfl⟩ := lobHead_inv hh
        refine ⟨hr, by simp, rfl, ?_, ?_⟩
        · refine List.isChain_append.2 ⟨hI.2.1.1, .singleton _, ?_⟩
          intro a ha b hb
          simp only [List.head?_cons, Option.mem_def, Option.some.injEq] at hb
          subst hb
          exact hI.2.2.2 a ha _ _
        · intro it hit
          cases hl : st.hist with
          | nil =>
            simp only [hl, List.nil_append, List.head?_cons, Option.mem_def, Option.some.injEq] at hit
            subst hit
            exact hI.2.2.1 hl _ _
          | cons a l =>
            refine hI.2.1.2 it ?_
            simpa [hl] using hit)
      (fun st st' r norms hJ hb _ ht => by
        obtain ⟨g1, g2⟩ := htail c _ _ _ _ hJ.1 (by rw [← hJ.2.2.2.1]; exact hb) hJ.2.1 ht
        have hf := (lobTail_frame ht).1
        have hm := hJ.2.2.1
        refine ⟨g1, by rw [hf]; exact hJ.2.2.2.2, fun h0 => ?_, ?_⟩
        · rw [hf] at h0
          rw [h0] at hm
          cases hm
        · intro it hit norms' m'
          rw [hf, hm] at hit
          simp only [Option.mem_def, Option.some.injEq] at hit
          subst hit
          exact g2 _ _)
      ⟨(hstart _ _ h1).1, by
        have := (hstart _ _ h1).2
        obtain ⟨x1, x2, l, ax, xax, lambda, eb, x, ax', -, -, -, -, -, -, -, -, -, rfl⟩ := h1.run
        exact ⟨⟨.nil, fun it hit => by cases hit⟩, fun _ => this, fun it hit => by cases hit⟩⟩ h2
    exact hq

/-- Where the first iterate comes from. -/
def StartIter (n k : Nat) (A : Matrix (Fin n) (Fin n) ℝ) (eig : EigSolver ℝ) (order : Order)
    (it : Iterate ℝ) : Prop :=
  it.gram = none ∧ ∃ (x a vecs : Arr2 ℝ), (toMat n k x)ᵀ * toMat n k x = 1 ∧ HasShape a k k ∧
    (toMat k k a).IsSymm ∧ toMat k k a = (toMat n k x)ᵀ * A * toMat n k x ∧
    sortedEig eig a none k order = .ok (it.pairs.eigvals, vecs) ∧ HasShape vecs k k ∧
    toMat n k it.pairs.eigvecs = toMat n k x * toMat k k vecs

/-- Where every other iterate comes from. -/
def StepIter (n k : Nat) (A : Matrix (Fin n) (Fin n) ℝ) (eig : EigSolver ℝ) (order : Order)
    (it it' : Iterate ℝ) : Prop :=
  ∃ (s : Nat) (S a B vecs : Arr2 ℝ), HasShape S n s ∧ k ≤ s ∧
    (∀ i j, i < n → j < k → S.get i j = it.pairs.eigvecs.get i j) ∧
    HasShape a s s ∧ (toMat s s a).IsSymm ∧ toMat s s a = (toMat n s S)ᵀ * A * toMat n s S ∧
    HasShape B s s ∧ toMat s s B = (toMat n s S)ᵀ * toMat n s S ∧
    sortedEig eig a (some B) k order = .ok (it'.pairs.eigvals, vecs) ∧ HasShape vecs s k ∧
    toMat n k it'.pairs.eigvecs = toMat n s S * toMat s k vecs ∧ it'.gram = some B ∧
    (it.gram = none → (toMat n k it.pairs.eigvecs)ᵀ * toMat n k it.pairs.eigvecs = 1 → toMat s s B = 1)

theorem lobpcgRun_ritz {n k : Nat} {A : Matrix (Fin n) (Fin n) ℝ} (hs : A.IsSymm) {eig : EigSolver ℝ}
    {P : LobParams ℝ} (hA : IsOperator A P) {x0 : Arr2 ℝ} (hx0 : HasShape x0 n k) {maxiter : Nat}
    {res : LobpcgResult ℝ} {hist : List (Iterate ℝ)}
    (h : lobpcgRun eig P x0 maxiter = .ok (res, hist)) :
    hist.IsChain (StepIter n k A eig P.order) ∧ ∀ it ∈ hist.head?, StartIter n k A eig P.order it := by
  refine lobpcgRun_chain h (fun _ st => AInv A k st ∧ st.explicitGram = true ∧
    (st.gram = none → st.pap = none)) _ _ ?_ ?_ ?_
  · intro c st h1
    obtain ⟨x1, x2, ax, xax, eb, L, -, -, s2, -, -, o2, h3, s3, s4, e4, h5, s5, e1, -, -, g1, g2, g3⟩ :=
      h1.mat hA.opShape hx0
    refine ⟨⟨h1.aInv hA hx0, g2, fun _ => g3⟩, fun m norms => ⟨g1, x2, xax, eb, o2, s4, ?_, ?_, h5, s5, e1⟩⟩
    · rw [e4, (hA _ _ _ _ s2 h3).2, Matrix.IsSymm, Matrix.transpose_mul, Matrix.transpose_mul,
        Matrix.transpose_transpose, hs.eq, Matrix.mul_assoc]
    · rw [e4, (hA _ _ _ _ s2 h3).2, Matrix.mul_assoc]
  · intro c st st' r norms hI hh
    refine ⟨lobHead_aInv hI.1 hh, ?_⟩
    obtain ⟨-, rfl⟩ := lobHead_inv hh
    exact hI.2
  · intro c st st' r norms hI _ hr ht
    obtain ⟨s, S, a, B, vecs, g1, g2, g3, g4, g5, g6, g7, g8, g9, g10, g11, g12, g13, -, g14⟩ :=
      (lobTail_step hA hI.1 hI.2.1 hr ht).run
    refine ⟨⟨lobTail_aInv hA hI.1 hr ht, g13, fun hn => by rw [hn] at g12; cases g12⟩,
      fun norms' m' => ⟨s, S, a, B, vecs, g1, g2, g3, g4, g5, g6 hs, g7, g8, g9, g10, g11, g12, ?_⟩⟩
    intro hn
    exact g14 (hI.2.2 hn)

/-- `sorted_eig` panics on an empty matrix. -/
theorem sortedEig_pos {s size : Nat} {eig : EigSolver ℝ} (ho : EigOrth eig) {a : Arr2 ℝ} {order : Order}
    (sa : HasShape a s s) (ha : (toMat s s a).IsSymm) {r : Arr1 ℝ × Arr2 ℝ}
    (h : sortedEig eig a none size order = .ok r) : 1 ≤ s := by
  by_contra hs
  obtain rfl : s = 0 := by omega
  obtain ⟨v0, q0, hin⟩ := sortedEig_inner h
  have hin' : eig a = .ok (v0, q0) := hin
  obtain ⟨lv, sq, -⟩ := ho 0 a v0 q0 sa ha hin'
  obtain ⟨ov, oq, σ, h1, -, -, hsh, -⟩ := C33_sort_eig v0 q0 0 (lv ▸ sq) (NaNFree.real v0) order
  unfold sortedEig at h
  simp only [hin', ok_bind, h1] at h
  rw [if_pos hsh.1] at h
  cases h

/-- Every iterate is the first one or has a predecessor. -/
theorem iterate_cases {F : Iterate ℝ → Prop} {R : Iterate ℝ → Iterate ℝ → Prop} {hist : List (Iterate ℝ)}
    (h : hist.IsChain R) (h1 : ∀ it ∈ hist.head?, F it) :
    ∀ it ∈ hist, F it ∨ ∃ it0 ∈ hist, R it0 it := by
  induction hist generalizing F with
  | nil => intro it hit; cases hit
  | cons a l ih =>
    intro it hit
    rcases List.mem_cons.1 hit with rfl | hit
    · exact Or.inl (h1 it (by simp))
    · right
      cases l with
      | nil => cases hit
      | cons b l =>
        rw [List.isChain_cons_cons] at h
        have := ih (F := fun it => it = b) h.2 (fun it hit => by simpa using hit.symm) it hit
        rcases this with rfl | ⟨it0, h2, h3⟩
        · exact ⟨a, by simp, h.1⟩
        · exact ⟨it0, by simp [h2], h3⟩

end LinfaLinalg
