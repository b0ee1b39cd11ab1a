import Verif.Proofs.LobpcgRitz
import Verif.Props.LobpcgReal
import Verif.Props.Iterator

/-! # C45, C57–C60: `lobpcg` is a Rayleigh–Ritz method -/

set_option linter.unusedSectionVars false

namespace LinfaLinalg

open Matrix

/-- The bound on the condition of the Gram matrices in the theorems below: `1e-10` rounded to single precision. -/
noncomputable def condFloor : ℝ := 14411519 / 144115188075855872

theorem condFloor_eq : condFloor = (gramFloor : ℝ) := by norm_num [condFloor, gramFloor]

theorem condFloor_pos : 0 < condFloor := by norm_num [condFloor]

/-- The eigenvalues of the symmetric matrix `B` are at least `c`. -/
def WellConditioned (c : ℝ) (B : Arr2 ℝ) : Prop :=
  ∀ x : Fin B.nr → ℝ, c * (x ⬝ᵥ x) ≤ x ⬝ᵥ (toMat B.nr B.nr B).mulVec x

theorem eighInto_orth (fuel : Nat) : EigOrth (eighInto fuel : EigSolver ℝ) := by
  intro s a v q sa ha h
  have h3 := eigh_real fuel a sa ha
  unfold eigh at h3
  rw [h] at h3
  obtain ⟨σ, h4, h5, h6, -⟩ := h3
  exact ⟨h4, h5, h6⟩

/-- How far from orthonormal an iterate can be. -/
theorem iterate_gram {n k : Nat} {A : Matrix (Fin n) (Fin n) ℝ} (hs : A.IsSymm) {eig : EigSolver ℝ}
    (ho : EigOrth eig) {P : LobParams ℝ} (hA : IsOperator A P) {x0 : Arr2 ℝ} (hx0 : HasShape x0 n k)
    {maxiter : Nat} {res : LobpcgResult ℝ} {hist : List (Iterate ℝ)}
    (h : lobpcgRun eig P x0 maxiter = .ok (res, hist)) (it : Iterate ℝ) (hit : it ∈ hist) :
    (it.gram = none ∧ (toMat n k it.pairs.eigvecs)ᵀ * toMat n k it.pairs.eigvecs = 1) ∨
    ∃ s B, it.gram = some B ∧ HasShape B s s ∧ (toMat s s B).IsSymm ∧ ∀ μ ε : ℝ, condFloor ≤ μ →
      (∀ w V, eig B = .ok (w, V) → (∀ i : Fin s, μ ≤ w.get i) ∧
        frob ((toMat s s V)ᵀ * toMat s s B * toMat s s V - Matrix.diagonal fun i : Fin s => w.get i) ≤ ε) →
      frob ((toMat n k it.pairs.eigvecs)ᵀ * toMat n k it.pairs.eigvecs - 1) ≤ ε / μ := by
  obtain ⟨h1, h2⟩ := lobpcgRun_ritz hs hA hx0 h
  have hk : 1 ≤ k := by
    cases hist with
    | nil => cases hit
    | cons a l =>
      obtain ⟨-, x, a, vecs, -, sa, ha, -, hse, -⟩ := h2 a (by simp)
      exact sortedEig_pos ho sa ha hse
  rcases iterate_cases h1 h2 it hit with ⟨g0, x, a, vecs, o, sa, ha, -, hse, -, e⟩ | ⟨it0, -, hst⟩
  · left
    refine ⟨g0, ?_⟩
    obtain ⟨v0, U0, L, U, Pm, -, -, -, -, oU, eU, -, -⟩ := sortedEig_std ho hse sa ha hk le_rfl
    have : toMat k k vecs = U := eU
    rw [e, this, Matrix.transpose_mul, Matrix.mul_assoc, ← Matrix.mul_assoc _ (toMat n k x), o,
      Matrix.one_mul, oU]
  · right
    obtain ⟨s, S, a, B, vecs, sS, hks, -, sa, ha, -, sB, eB, hse, -, ex, hg, -⟩ := hst
    have hB : (toMat s s B).IsSymm := by rw [eB]; exact isSymm_gram _
    refine ⟨s, B, hg, sB, hB, fun μ ε hμ hw => ?_⟩
    have := sortedEig_whitens ho hse sa ha sB hB (hk.trans hks) hks (condFloor_eq ▸ hμ) hw
    rw [ex, Matrix.transpose_mul, Matrix.mul_assoc, ← Matrix.mul_assoc _ (toMat n s S), ← eB,
      ← Matrix.mul_assoc]
    exact this

/-- C45 for an eigensolver with relative error `η` on the Gram matrix. -/
theorem C45_error_bound {n k : Nat} {A : Matrix (Fin n) (Fin n) ℝ} (hs : A.IsSymm) {eig : EigSolver ℝ}
    {η : ℝ} (he : EigWithin η eig) {P : LobParams ℝ} (hA : IsOperator A P) {x0 : Arr2 ℝ}
    (hx0 : HasShape x0 n k) {maxiter : Nat} {res : LobpcgResult ℝ} {hist : List (Iterate ℝ)}
    (h : lobpcgRun eig P x0 maxiter = .ok (res, hist)) (it : Iterate ℝ) (hit : it ∈ hist) :
    (it.gram = none → (toMat n k it.pairs.eigvecs)ᵀ * toMat n k it.pairs.eigvecs = 1) ∧
    ∀ B, it.gram = some B → ∀ μ : ℝ, condFloor ≤ μ →
      WellConditioned (μ + η * frob (toMat B.nr B.nr B)) B →
      frob ((toMat n k it.pairs.eigvecs)ᵀ * toMat n k it.pairs.eigvecs - 1) ≤
        η * frob (toMat B.nr B.nr B) / μ := by
  rcases iterate_gram hs he.1 hA hx0 h it hit with ⟨h1, h2⟩ | ⟨s, B, h1, sB, hB, h2⟩
  · exact ⟨fun _ => h2, fun B hB => by rw [h1] at hB; cases hB⟩
  · refine ⟨fun h0 => (by rw [h1] at h0; cases h0), fun B' hB' μ hμ hc => ?_⟩
    rw [h1] at hB'
    injection hB' with hB'
    subst hB'
    obtain rfl : s = B.nr := sB.1.symm
    exact h2 μ _ hμ fun w V hw => ⟨eigWithin_lower he sB hB hw hc, he.2 _ _ _ _ sB hB hw⟩

/-- **C45**: in exact arithmetic, with an exact eigensolver for the small problems, every iterate whose
Gram matrix has no eigenvalue below `1e-10` is orthonormal. For every symmetric operator, preconditioner,
constraint, tolerance and number of iterations. Missing: the error of `eigh_into`, for which see
`C45_error_bound` and `C45_eigh`. -/
theorem C45_orthonormal_partial {n k : Nat} {A : Matrix (Fin n) (Fin n) ℝ} (hs : A.IsSymm)
    {eig : EigSolver ℝ} (he : EigWithin 0 eig) {P : LobParams ℝ} (hA : IsOperator A P) {x0 : Arr2 ℝ}
    (hx0 : HasShape x0 n k) {maxiter : Nat} {res : LobpcgResult ℝ} {hist : List (Iterate ℝ)}
    (h : lobpcgRun eig P x0 maxiter = .ok (res, hist)) (it : Iterate ℝ) (hit : it ∈ hist)
    (hc : ∀ B, it.gram = some B → WellConditioned condFloor B) :
    (toMat n k it.pairs.eigvecs)ᵀ * toMat n k it.pairs.eigvecs = 1 := by
  obtain ⟨h1, h2⟩ := C45_error_bound hs he hA hx0 h it hit
  cases hg : it.gram with
  | none => exact h1 hg
  | some B =>
    have := h2 B hg condFloor le_rfl (by rw [zero_mul, add_zero]; exact hc B hg)
    rw [zero_mul, zero_div] at this
    exact sub_eq_zero.1 (frob_eq_zero (le_antisymm this (frob_nonneg _)))

/-- C45 for what is returned. -/
theorem C45_returned_partial {n k : Nat} {A : Matrix (Fin n) (Fin n) ℝ} (hs : A.IsSymm)
    {eig : EigSolver ℝ} (he : EigWithin 0 eig) {P : LobParams ℝ} (hA : IsOperator A P) {x0 : Arr2 ℝ}
    (hx0 : HasShape x0 n k) {maxiter : Nat} {res : LobpcgResult ℝ} {hist : List (Iterate ℝ)}
    (h : lobpcgRun eig P x0 maxiter = .ok (res, hist))
    (hc : ∀ it ∈ hist, ∀ B, it.gram = some B → WellConditioned condFloor B) (b : Lobpcg ℝ)
    (hb : Returned res b) : (toMat n k b.eigvecs)ᵀ * toMat n k b.eigvecs = 1 := by
  obtain ⟨⟨it, hit, rfl⟩, -⟩ := C42_best_iterate eig P x0 maxiter res hist h b hb
  exact C45_orthonormal_partial hs he hA hx0 h it hit (hc it hit)

/-- C45 for `eigh_into` itself: its values may be paired with the wrong vectors (C30), and then the
scaling of the basis is wrong, but only by as much as the Gram matrix differs from the identity. -/
theorem C45_eigh {n k : Nat} {A : Matrix (Fin n) (Fin n) ℝ} (hs : A.IsSymm) (fuel : Nat)
    {P : LobParams ℝ} (hA : IsOperator A P) {x0 : Arr2 ℝ} (hx0 : HasShape x0 n k) {maxiter : Nat}
    {res : LobpcgResult ℝ} {hist : List (Iterate ℝ)}
    (h : lobpcgRun (eighInto fuel) P x0 maxiter = .ok (res, hist)) (it : Iterate ℝ) (hit : it ∈ hist) :
    (it.gram = none → (toMat n k it.pairs.eigvecs)ᵀ * toMat n k it.pairs.eigvecs = 1) ∧
    ∀ B, it.gram = some B → ∀ δ δ' : ℝ, frob (toMat B.nr B.nr B - 1) ≤ δ →
      δ' = δ + 2 * (B.nr - 1 : Nat) * (2 : ℝ)⁻¹ ^ 52 * frob (toMat B.nr B.nr B) →
      condFloor ≤ 1 - δ' →
      frob ((toMat n k it.pairs.eigvecs)ᵀ * toMat n k it.pairs.eigvecs - 1) ≤ (δ + δ') / (1 - δ') := by
  rcases iterate_gram hs (eighInto_orth fuel) hA hx0 h it hit with ⟨h1, h2⟩ | ⟨s, B, h1, sB, hB, h2⟩
  · exact ⟨fun _ => h2, fun B hB => by rw [h1] at hB; cases hB⟩
  · refine ⟨fun h0 => (by rw [h1] at h0; cases h0), fun B' hB' δ δ' hδ hδ' hf => ?_⟩
    rw [h1] at hB'
    injection hB' with hB'
    subst hB'
    obtain rfl : s = B.nr := sB.1.symm
    refine h2 (1 - δ') _ hf fun w V hw => ?_
    have h3 := eigh_real fuel B sB hB
    unfold eigh at h3
    rw [hw] at h3
    obtain ⟨σ, -, -, oV, h4⟩ := h3
    simp only at oV h4
    have oV' : toMat B.nr B.nr V * (toMat B.nr B.nr V)ᵀ = 1 := mul_eq_one_comm.1 oV
    -- in the basis of the vectors
    have h5 : frob ((toMat B.nr B.nr V)ᵀ * toMat B.nr B.nr B * toMat B.nr B.nr V -
        Matrix.diagonal fun i : Fin B.nr => w.get (σ i)) ≤
        2 * (B.nr - 1 : Nat) * (2 : ℝ)⁻¹ ^ 52 * frob (toMat B.nr B.nr B) := by
      rw [← frob_conj_orth oV] at h4
      refine le_of_eq_of_le ?_ h4
      congr 1
      rw [Matrix.mul_sub, Matrix.sub_mul]
      congr 1
      simp only [Matrix.mul_assoc, oV, Matrix.mul_one]
      rw [← Matrix.mul_assoc, oV, Matrix.one_mul]
    have h6 : frob ((toMat B.nr B.nr V)ᵀ * toMat B.nr B.nr B * toMat B.nr B.nr V - 1) ≤ δ := by
      rw [← frob_conj_orth oV] at hδ
      refine le_of_eq_of_le ?_ hδ
      congr 1
      rw [Matrix.mul_sub, Matrix.sub_mul, Matrix.mul_one, oV]
    have h7 : frob (1 - Matrix.diagonal fun i : Fin B.nr => w.get i) ≤ δ' := by
      rw [← frob_one_sub_perm (fun i : Fin B.nr => w.get i) σ, hδ']
      refine (frob_sub_le _ ((toMat B.nr B.nr V)ᵀ * toMat B.nr B.nr B * toMat B.nr B.nr V) _).trans ?_
      refine add_le_add (le_of_eq_of_le ?_ h6) h5
      rw [← neg_sub, frob_neg]
    constructor
    · intro i
      have := (abs_le_frob _ i i).trans h7
      rw [Matrix.sub_apply, Matrix.one_apply_eq, Matrix.diagonal_apply_eq] at this
      have := (abs_le.1 this).2
      linarith
    · have : (toMat B.nr B.nr V)ᵀ * toMat B.nr B.nr B * toMat B.nr B.nr V -
          Matrix.diagonal (fun i : Fin B.nr => w.get i) =
          ((toMat B.nr B.nr V)ᵀ * toMat B.nr B.nr B * toMat B.nr B.nr V - 1) +
          (1 - Matrix.diagonal fun i : Fin B.nr => w.get i) := by abel
      rw [this]
      exact (frob_add_le _ _).trans (add_le_add h6 h7)

/-- The first iterate is not the result of an update, and the Gram matrix used for the second is the
identity. -/
theorem gram_two {n k : Nat} {A : Matrix (Fin n) (Fin n) ℝ} (hs : A.IsSymm) {eig : EigSolver ℝ}
    (ho : EigOrth eig) {P : LobParams ℝ} (hA : IsOperator A P) {x0 : Arr2 ℝ} (hx0 : HasShape x0 n k)
    {maxiter : Nat} {res : LobpcgResult ℝ} {hist : List (Iterate ℝ)}
    (h : lobpcgRun eig P x0 maxiter = .ok (res, hist)) :
    (∀ it0, hist[0]? = some it0 → it0.gram = none) ∧
    ∀ it1, hist[1]? = some it1 → ∃ B, it1.gram = some B ∧ toMat B.nr B.nr B = 1 := by
  obtain ⟨g1, g2⟩ := lobpcgRun_ritz hs hA hx0 h
  have hg : ∀ it0, hist[0]? = some it0 → it0.gram = none := by
    intro it0 h0
    exact (g2 it0 (by rw [List.head?_eq_getElem?]; exact h0)).1
  refine ⟨hg, fun it1 h1 => ?_⟩
  have hl : ∃ it0 l, hist = it0 :: it1 :: l := by
    match hist, h1 with
    | a :: b :: l, h1 =>
      simp only [List.getElem?_cons_succ, List.getElem?_cons_zero, Option.some.injEq] at h1
      subst h1
      exact ⟨a, l, rfl⟩
  obtain ⟨it0, l, rfl⟩ := hl
  have gn := hg it0 (by simp)
  rw [List.isChain_cons_cons] at g1
  obtain ⟨s, S, a, B, vecs, -, -, -, -, -, -, sB, -, -, -, -, hg, hB⟩ := g1.1
  have o0 : (toMat n k it0.pairs.eigvecs)ᵀ * toMat n k it0.pairs.eigvecs = 1 := by
    rcases iterate_gram hs ho hA hx0 h it0 (by simp) with ⟨-, h2⟩ | ⟨_, _, h2, -⟩
    · exact h2
    · rw [gn] at h2; cases h2
  obtain rfl : s = B.nr := sB.1.symm
  exact ⟨B, hg, hB gn o0⟩

/-- The second iterate is computed from an orthonormal basis, so it is orthonormal up to the error of
`eigh_into`: at most `2⁻⁵⁰ s²` for a basis of `s ≤ 2²⁵` vectors. -/
theorem C45_two_iterates {n k : Nat} {A : Matrix (Fin n) (Fin n) ℝ} (hs : A.IsSymm) (fuel : Nat)
    {P : LobParams ℝ} (hA : IsOperator A P) {x0 : Arr2 ℝ} (hx0 : HasShape x0 n k) {maxiter : Nat}
    {res : LobpcgResult ℝ} {hist : List (Iterate ℝ)}
    (h : lobpcgRun (eighInto fuel) P x0 maxiter = .ok (res, hist)) (it1 : Iterate ℝ)
    (h1 : hist[1]? = some it1) :
    ∃ B, it1.gram = some B ∧ toMat B.nr B.nr B = 1 ∧ (B.nr ≤ 2 ^ 25 →
      frob ((toMat n k it1.pairs.eigvecs)ᵀ * toMat n k it1.pairs.eigvecs - 1) ≤
        (2 : ℝ)⁻¹ ^ 50 * (B.nr : ℝ) ^ 2) := by
  obtain ⟨B, hg, hB1⟩ := (gram_two hs (eighInto_orth fuel) hA hx0 h).2 it1 h1
  refine ⟨B, hg, hB1, fun hle => ?_⟩
  have h2 := (C45_eigh hs fuel hA hx0 h it1 (List.mem_of_getElem? h1)).2 B hg 0 _
    (by rw [hB1, sub_self]; exact le_of_eq (by simp [frob])) rfl
  rw [hB1] at h2
  generalize hd : 0 + 2 * ((B.nr - 1 : Nat) : ℝ) * (2 : ℝ)⁻¹ ^ 52 *
    frob (1 : Matrix (Fin B.nr) (Fin B.nr) ℝ) = d at h2
  have hd1 : d ≤ (2 : ℝ)⁻¹ ^ 51 * (B.nr : ℝ) ^ 2 := by
    have e1 : ((B.nr - 1 : Nat) : ℝ) ≤ B.nr := by exact_mod_cast Nat.sub_le _ _
    have e2 := frob_one_le (s := B.nr)
    have e3 : ((B.nr - 1 : Nat) : ℝ) * frob (1 : Matrix (Fin B.nr) (Fin B.nr) ℝ) ≤ B.nr * B.nr :=
      mul_le_mul e1 e2 (frob_nonneg _) (Nat.cast_nonneg _)
    rw [← hd]
    have e4 : (2 : ℝ)⁻¹ ^ 51 = 2 * (2 : ℝ)⁻¹ ^ 52 := by norm_num
    rw [e4]
    have e5 : (0 : ℝ) ≤ 2 * (2 : ℝ)⁻¹ ^ 52 := by positivity
    calc 0 + 2 * ((B.nr - 1 : Nat) : ℝ) * (2 : ℝ)⁻¹ ^ 52 * frob (1 : Matrix (Fin B.nr) (Fin B.nr) ℝ)
        = 2 * (2 : ℝ)⁻¹ ^ 52 * (((B.nr - 1 : Nat) : ℝ) * frob (1 : Matrix (Fin B.nr) (Fin B.nr) ℝ)) := by ring
      _ ≤ 2 * (2 : ℝ)⁻¹ ^ 52 * (B.nr * B.nr) := mul_le_mul_of_nonneg_left e3 e5
      _ = _ := by ring
  have hd0 : 0 ≤ d := by
    rw [← hd]
    have := frob_nonneg (1 : Matrix (Fin B.nr) (Fin B.nr) ℝ)
    positivity
  have hd2 : d ≤ 1 / 2 := by
    have e1 : (B.nr : ℝ) ≤ 2 ^ 25 := by exact_mod_cast hle
    have e2 : (B.nr : ℝ) ^ 2 ≤ (2 ^ 25) ^ 2 := pow_le_pow_left₀ (Nat.cast_nonneg _) e1 2
    refine hd1.trans ((mul_le_mul_of_nonneg_left e2 (by positivity)).trans ?_)
    norm_num
  have hfl : condFloor ≤ 1 - d := by
    have : condFloor ≤ 1 / 2 := by norm_num [condFloor]
    linarith
  refine (h2 hfl).trans ?_
  rw [div_le_iff₀ (by linarith), zero_add]
  have e5 : (2 : ℝ)⁻¹ ^ 50 * (B.nr : ℝ) ^ 2 = 2 * ((2 : ℝ)⁻¹ ^ 51 * (B.nr : ℝ) ^ 2) := by
    rw [← mul_assoc]; norm_num
  rw [e5]
  generalize (2 : ℝ)⁻¹ ^ 51 * (B.nr : ℝ) ^ 2 = t at hd1 ⊢
  nlinarith

/-! ## Ritz values -/

/-- The rank of the values of an iterate. -/
theorem iterate_ritz {n k : Nat} {A : Matrix (Fin n) (Fin n) ℝ} (hs : A.IsSymm) {eig : EigSolver ℝ}
    (he : EigWithin 0 eig) {P : LobParams ℝ} (hA : IsOperator A P) {x0 : Arr2 ℝ} (hx0 : HasShape x0 n k)
    {maxiter : Nat} {res : LobpcgResult ℝ} {hist : List (Iterate ℝ)}
    (h : lobpcgRun eig P x0 maxiter = .ok (res, hist)) (it : Iterate ℝ) (hit : it ∈ hist) :
    (toMat n k it.pairs.eigvecs)ᵀ * A * toMat n k it.pairs.eigvecs =
      Matrix.diagonal (fun i : Fin k => it.pairs.eigvals.get i) ∧
    Ordered P.order fun i : Fin k => it.pairs.eigvals.get i := by
  have hz : ∀ {s : Nat} {a q : Arr2 ℝ} {v : Arr1 ℝ}, HasShape a s s → (toMat s s a).IsSymm →
      eig a = .ok (v, q) → (toMat s s q)ᵀ * toMat s s a * toMat s s q =
        Matrix.diagonal fun i : Fin s => v.get i := by
    intro s a q v sa ha h
    have := he.2 s a v q sa ha h
    rw [zero_mul] at this
    exact sub_eq_zero.1 (frob_eq_zero (le_antisymm this (frob_nonneg _)))
  obtain ⟨h1, h2⟩ := lobpcgRun_ritz hs hA hx0 h
  have hk : 1 ≤ k := by
    cases hist with
    | nil => cases hit
    | cons a l =>
      obtain ⟨-, x, a, vecs, -, sa, ha, -, hse, -⟩ := h2 a (by simp)
      exact sortedEig_pos he.1 sa ha hse
  rcases iterate_cases h1 h2 it hit with ⟨-, x, a, vecs, -, sa, ha, ea, hse, -, e⟩ | ⟨it0, -, hst⟩
  · obtain ⟨v0, U0, L, U, Pm, hU0, rfl, -, hP, -, eU, hord, hl⟩ := sortedEig_std he.1 hse sa ha hk le_rfl
    have eU : toMat k k vecs = toMat k k U0 * Pm := eU
    constructor
    · calc (toMat n k it.pairs.eigvecs)ᵀ * A * toMat n k it.pairs.eigvecs
          = Pmᵀ * ((toMat k k U0)ᵀ * ((toMat n k x)ᵀ * A * toMat n k x) * toMat k k U0) * Pm := by
            rw [e, eU]
            simp only [Matrix.transpose_mul, Matrix.mul_assoc]
        _ = Matrix.diagonal L := by rw [← ea, hz sa ha hU0, hP]
        _ = _ := by
          congr 1
          ext i
          exact (hl i).symm
    · have := hord.castLE (le_refl k)
      simp only [← hl] at this
      exact this
  · obtain ⟨s, S, a, B, vecs, sS, hks, -, sa, ha, ea, sB, eB, hse, -, ex, -, -⟩ := hst
    have hB : (toMat s s B).IsSymm := by rw [eB]; exact isSymm_gram _
    obtain ⟨w, v0, V, at_, U0, L, Q, U, W, Pm, -, hU0, sat, hat, -, eat, rfl, -, hP, -, rfl, eU, hord, hl⟩ :=
      sortedEig_gen he.1 hse sa ha sB hB (hk.trans hks) hks
    constructor
    · rw [ex, eU]
      have e1 : (toMat n s S * (W * (toMat s s U0 * Pm)).submatrix id (Fin.castLE hks))ᵀ * A *
          (toMat n s S * (W * (toMat s s U0 * Pm)).submatrix id (Fin.castLE hks)) =
          ((W * (toMat s s U0 * Pm)).submatrix id (Fin.castLE hks))ᵀ * toMat s s a *
            (W * (toMat s s U0 * Pm)).submatrix id (Fin.castLE hks) := by
        rw [ea]
        simp only [Matrix.transpose_mul, Matrix.mul_assoc]
      have e2 : (W * (toMat s s U0 * Pm))ᵀ * toMat s s a * (W * (toMat s s U0 * Pm)) =
          Matrix.diagonal L := by
        calc _ = Pmᵀ * ((toMat s s U0)ᵀ * (Wᵀ * toMat s s a * W) * toMat s s U0) * Pm := by
              simp only [Matrix.transpose_mul, Matrix.mul_assoc]
          _ = _ := by rw [← eat, hz sat hat hU0, hP]
      rw [e1, submatrix_gram, e2]
      ext i j
      rw [Matrix.submatrix_apply, Matrix.diagonal_apply, Matrix.diagonal_apply]
      simp only [Fin.ext_iff, Fin.val_castLE, hl]
    · have := hord.castLE hks
      simp only [← hl] at this
      exact this

/-- **C57**: with an exact eigensolver for the small problems, the pairs of every iterate are Ritz pairs:
`XᵀAX = diag(λ)`, with the values in the order asked for. For every symmetric operator, preconditioner,
constraint, tolerance and number of iterations, whatever the condition of the Gram matrices. -/
theorem C57_ritz_values {n k : Nat} {A : Matrix (Fin n) (Fin n) ℝ} (hs : A.IsSymm) {eig : EigSolver ℝ}
    (he : EigWithin 0 eig) {P : LobParams ℝ} (hA : IsOperator A P) {x0 : Arr2 ℝ} (hx0 : HasShape x0 n k)
    {maxiter : Nat} {res : LobpcgResult ℝ} {hist : List (Iterate ℝ)}
    (h : lobpcgRun eig P x0 maxiter = .ok (res, hist)) (b : Lobpcg ℝ) (hb : Returned res b) :
    (toMat n k b.eigvecs)ᵀ * A * toMat n k b.eigvecs = Matrix.diagonal (fun i : Fin k => b.eigvals.get i) ∧
    Ordered P.order fun i : Fin k => b.eigvals.get i := by
  obtain ⟨⟨it, hit, rfl⟩, -⟩ := C42_best_iterate eig P x0 maxiter res hist h b hb
  exact iterate_ritz hs he hA hx0 h it hit

/-- `x` is at least as close as `y` to the end of the spectrum asked for. -/
def NoWorse (order : Order) (x y : ℝ) : Prop :=
  match order with
  | .smallest => x ≤ y
  | .largest => y ≤ x

/-- With an exact eigensolver and a well conditioned Gram matrix, the small eigenproblem is solved exactly:
`Q` is a basis of the trial space, orthonormal with respect to `B`, that diagonalises `a`, and the values
returned are the first on the diagonal. -/
theorem step_basis {s k : Nat} {eig : EigSolver ℝ} (he : EigWithin 0 eig) {order : Order} (hk : 1 ≤ k)
    (hks : k ≤ s) {a B vecs : Arr2 ℝ} {vals : Arr1 ℝ} (sa : HasShape a s s) (ha : (toMat s s a).IsSymm)
    (sB : HasShape B s s) (hB : (toMat s s B).IsSymm)
    (hse : sortedEig eig a (some B) k order = .ok (vals, vecs)) (hc : WellConditioned condFloor B) :
    ∃ (Q : Matrix (Fin s) (Fin s) ℝ) (L : Fin s → ℝ), Qᵀ * toMat s s B * Q = 1 ∧
      Qᵀ * toMat s s a * Q = Matrix.diagonal L ∧ Ordered order L ∧
      ∀ j : Fin k, vals.get j = L (Fin.castLE hks j) := by
  have hz : ∀ {s : Nat} {a q : Arr2 ℝ} {v : Arr1 ℝ}, HasShape a s s → (toMat s s a).IsSymm →
      eig a = .ok (v, q) → (toMat s s q)ᵀ * toMat s s a * toMat s s q =
        Matrix.diagonal fun i : Fin s => v.get i := by
    intro s a q v sa ha h
    have := he.2 s a v q sa ha h
    rw [zero_mul] at this
    exact sub_eq_zero.1 (frob_eq_zero (le_antisymm this (frob_nonneg _)))
  obtain ⟨w, v0, V, at_, U0, L, Q, U, W, Pm, hw, hU0, sat, hat, hW, eat, rfl, -, hP, oU, rfl, eU, hordL, hl⟩ :=
    sortedEig_gen he.1 hse sa ha sB hB (hk.trans hks) hks
  refine ⟨W * (toMat s s U0 * Pm), L, ?_, ?_, hordL, hl⟩
  · obtain rfl : s = B.nr := sB.1.symm
    have hlow : ∀ i : Fin B.nr, condFloor ≤ w.get i :=
      eigWithin_lower he sB hB hw (by simpa only [zero_mul, add_zero, WellConditioned] using hc)
    have := whiten (B := toMat B.nr B.nr B) (V := toMat B.nr B.nr V) oU condFloor_pos hlow
      (fun i => gramScale_spec (condFloor_eq ▸ hlow i)) (ε := 0) (by rw [hz sB hB hw, sub_self]; exact le_of_eq (by simp [frob]))
    rw [zero_div, ← hW] at this
    exact sub_eq_zero.1 (frob_eq_zero (le_antisymm this (frob_nonneg _)))
  · calc _ = Pmᵀ * ((toMat s s U0)ᵀ * (Wᵀ * toMat s s a * W) * toMat s s U0) * Pm := by
          simp only [Matrix.transpose_mul, Matrix.mul_assoc]
      _ = _ := by rw [← eat, hz sat hat hU0, hP]

/-- One step of the Rayleigh–Ritz method does not make any value worse. -/
theorem step_monotone {n k : Nat} {A : Matrix (Fin n) (Fin n) ℝ} {eig : EigSolver ℝ}
    (he : EigWithin 0 eig) {order : Order} {it it' : Iterate ℝ} (hk : 1 ≤ k)
    (h : StepIter n k A eig order it it')
    (ho : (toMat n k it.pairs.eigvecs)ᵀ * toMat n k it.pairs.eigvecs = 1)
    (hr : (toMat n k it.pairs.eigvecs)ᵀ * A * toMat n k it.pairs.eigvecs =
      Matrix.diagonal (fun i : Fin k => it.pairs.eigvals.get i))
    (hord : Ordered order fun i : Fin k => it.pairs.eigvals.get i)
    (hc : ∀ B, it'.gram = some B → WellConditioned condFloor B) (j : Fin k) :
    NoWorse order (it'.pairs.eigvals.get j) (it.pairs.eigvals.get j) := by
  obtain ⟨s, S, a, B, vecs, sS, hks, eS, sa, ha, ea, sB, eB, hse, -, ex, hg, -⟩ := h
  have hB : (toMat s s B).IsSymm := by rw [eB]; exact isSymm_gram _
  obtain ⟨Q, L, hQB, hQa, hordL, hl⟩ := step_basis he hk hks sa ha sB hB hse (hc B hg)
  have hQ1 : Q * (Qᵀ * toMat s s B) = 1 := mul_eq_one_comm.1 hQB
  have hQ2 : toMat s s B * Q * Qᵀ = 1 := by
    have := congrArg Matrix.transpose hQ1
    rw [Matrix.transpose_mul, Matrix.transpose_mul, Matrix.transpose_transpose, hB.eq,
      Matrix.transpose_one] at this
    exact this
  -- the old block in the new basis
  have hX : toMat n k it.pairs.eigvecs = (toMat n s S).submatrix id (Fin.castLE hks) := by
    ext i j
    exact (eS i j i.2 j.2).symm
  have hE : ∀ M : Matrix (Fin s) (Fin s) ℝ,
      ((1 : Matrix (Fin s) (Fin s) ℝ).submatrix id (Fin.castLE hks))ᵀ * M *
        (1 : Matrix (Fin s) (Fin s) ℝ).submatrix id (Fin.castLE hks) =
      M.submatrix (Fin.castLE hks) (Fin.castLE hks) := by
    intro M
    rw [submatrix_gram, Matrix.transpose_one, Matrix.one_mul, Matrix.mul_one]
  set E := (1 : Matrix (Fin s) (Fin s) ℝ).submatrix id (Fin.castLE hks) with hEdef
  have hC : (Qᵀ * toMat s s B * E)ᵀ * (Qᵀ * toMat s s B * E) = 1 := by
    calc (Qᵀ * toMat s s B * E)ᵀ * (Qᵀ * toMat s s B * E)
        = Eᵀ * (toMat s s B * (Q * (Qᵀ * toMat s s B))) * E := by
          simp only [Matrix.transpose_mul, Matrix.transpose_transpose, hB.eq, Matrix.mul_assoc]
      _ = (toMat s s B).submatrix (Fin.castLE hks) (Fin.castLE hks) := by
          rw [hQ1, Matrix.mul_one, hE]
      _ = 1 := by
        rw [← ho, hX, eB]
        ext i j
        simp [Matrix.mul_apply]
  have hD : (Qᵀ * toMat s s B * E)ᵀ * Matrix.diagonal L * (Qᵀ * toMat s s B * E) =
      Matrix.diagonal (fun i : Fin k => it.pairs.eigvals.get i) := by
    calc (Qᵀ * toMat s s B * E)ᵀ * Matrix.diagonal L * (Qᵀ * toMat s s B * E)
        = Eᵀ * ((toMat s s B * Q * Qᵀ) * toMat s s a * (Q * (Qᵀ * toMat s s B))) * E := by
          rw [← hQa]
          simp only [Matrix.transpose_mul, Matrix.transpose_transpose, hB.eq, Matrix.mul_assoc]
      _ = (toMat s s a).submatrix (Fin.castLE hks) (Fin.castLE hks) := by
          rw [hQ1, hQ2, Matrix.one_mul, Matrix.mul_one, hE]
      _ = _ := by rw [← hr, hX, submatrix_gram, ea]
  cases order with
  | smallest =>
    unfold NoWorse
    simp only
    rw [hl j]
    exact ritz_le hks hordL hord hC hD j
  | largest =>
    unfold NoWorse
    simp only
    rw [hl j]
    exact ritz_ge hks hordL hord hC hD j

/-- **C58**: from one iterate to the next no Ritz value moves away from its end of the spectrum: with
`Order::Smallest` every value decreases or stays, with `Order::Largest` it increases or stays. Exact
eigensolver for the small problems, Gram matrices without eigenvalues below `1e-10`; every symmetric
operator, preconditioner, constraint, tolerance and number of iterations. -/
theorem C58_monotone {n k : Nat} {A : Matrix (Fin n) (Fin n) ℝ} (hs : A.IsSymm) {eig : EigSolver ℝ}
    (he : EigWithin 0 eig) {P : LobParams ℝ} (hA : IsOperator A P) {x0 : Arr2 ℝ} (hx0 : HasShape x0 n k)
    {maxiter : Nat} {res : LobpcgResult ℝ} {hist : List (Iterate ℝ)}
    (h : lobpcgRun eig P x0 maxiter = .ok (res, hist))
    (hc : ∀ it ∈ hist, ∀ B, it.gram = some B → WellConditioned condFloor B)
    (p q : Nat) (hpq : p ≤ q) (itp itq : Iterate ℝ) (hp : hist[p]? = some itp) (hq : hist[q]? = some itq)
    (j : Fin k) :
    NoWorse P.order (itq.pairs.eigvals.get j) (itp.pairs.eigvals.get j) := by
  obtain ⟨h1, h2⟩ := lobpcgRun_ritz hs hA hx0 h
  have hk : 1 ≤ k := by have := j.2; omega
  have step : ∀ p it it', hist[p]? = some it → hist[p + 1]? = some it' →
      NoWorse P.order (it'.pairs.eigvals.get j) (it.pairs.eigvals.get j) := by
    intro p it it' hp hq
    have hR : StepIter n k A eig P.order it it' := by
      rw [List.isChain_iff_getElem] at h1
      obtain ⟨hlt, hq'⟩ := List.getElem?_eq_some_iff.1 hq
      obtain ⟨hlt', hp'⟩ := List.getElem?_eq_some_iff.1 hp
      have := h1 p hlt
      rw [hp', hq'] at this
      exact this
    have hm := List.mem_of_getElem? hp
    have hm' := List.mem_of_getElem? hq
    obtain ⟨g1, g2⟩ := iterate_ritz hs he hA hx0 h it hm
    exact step_monotone he hk hR (C45_orthonormal_partial hs he hA hx0 h it hm (hc it hm)) g1 g2 (hc it' hm') j
  obtain ⟨d, rfl⟩ := Nat.exists_eq_add_of_le hpq
  clear hpq
  induction d generalizing itq with
  | zero =>
    rw [Nat.add_zero, hp] at hq
    injection hq with hq
    subst hq
    cases P.order <;> exact le_rfl
  | succ d ih =>
    obtain ⟨hlt, -⟩ := List.getElem?_eq_some_iff.1 hq
    have hmid : hist[p + d]? = some (hist[p + d]'(by omega)) := List.getElem?_eq_getElem _
    have e1 := ih _ hmid
    have e2 := step (p + d) _ itq hmid hq
    cases hord : P.order with
    | smallest => rw [hord] at e1 e2; exact le_trans e2 e1
    | largest => rw [hord] at e1 e2; exact le_trans e1 e2

/-- **C59**: the values of every iterate with a well conditioned Gram matrix lie on the right side of the
eigenvalues of the operator: if `A = Q diag(Λ) Qᵀ` with `Λ` in the order asked for, then the `j`-th value is
at least `Λ j` for `Order::Smallest` and at most `Λ j` for `Order::Largest`. Exact eigensolver for the small
problems. -/
theorem C59_one_sided {n k : Nat} {A : Matrix (Fin n) (Fin n) ℝ} (hs : A.IsSymm) {eig : EigSolver ℝ}
    (he : EigWithin 0 eig) {P : LobParams ℝ} (hA : IsOperator A P) {x0 : Arr2 ℝ} (hx0 : HasShape x0 n k)
    {maxiter : Nat} {res : LobpcgResult ℝ} {hist : List (Iterate ℝ)}
    (h : lobpcgRun eig P x0 maxiter = .ok (res, hist)) (it : Iterate ℝ) (hit : it ∈ hist)
    (hc : ∀ B, it.gram = some B → WellConditioned condFloor B) (hkn : k ≤ n)
    (Q : Matrix (Fin n) (Fin n) ℝ) (L : Fin n → ℝ) (hQ : Qᵀ * Q = 1)
    (hAQ : A = Q * Matrix.diagonal L * Qᵀ) (hL : Ordered P.order L) (j : Fin k) :
    NoWorse P.order (L (Fin.castLE hkn j)) (it.pairs.eigvals.get j) := by
  have ho := C45_orthonormal_partial hs he hA hx0 h it hit hc
  obtain ⟨hr, hord⟩ := iterate_ritz hs he hA hx0 h it hit
  have hQ' : Q * Qᵀ = 1 := mul_eq_one_comm.1 hQ
  have hC : (Qᵀ * toMat n k it.pairs.eigvecs)ᵀ * (Qᵀ * toMat n k it.pairs.eigvecs) = 1 := by
    rw [Matrix.transpose_mul, Matrix.transpose_transpose, Matrix.mul_assoc, ← Matrix.mul_assoc Q, hQ',
      Matrix.one_mul, ho]
  have hD : (Qᵀ * toMat n k it.pairs.eigvecs)ᵀ * Matrix.diagonal L * (Qᵀ * toMat n k it.pairs.eigvecs) =
      Matrix.diagonal (fun i : Fin k => it.pairs.eigvals.get i) := by
    rw [← hr, hAQ]
    simp only [Matrix.transpose_mul, Matrix.transpose_transpose, Matrix.mul_assoc]
  cases hO : P.order with
  | smallest =>
    rw [hO] at hord hL
    exact ritz_le hkn hL hord hC hD j
  | largest =>
    rw [hO] at hord hL
    exact ritz_ge hkn hL hord hC hD j

/-- **C60**: every value returned is close to an eigenvalue of the operator: within the residual norm
divided by the length of the vector. For every symmetric operator and any eigensolver for the small
problems; no condition on the Gram matrices. -/
theorem C60_near_eigenvalue {n k : Nat} {A : Matrix (Fin n) (Fin n) ℝ} (hs : A.IsSymm) (eig : EigSolver ℝ)
    (P : LobParams ℝ) (hA : IsOperator A P) (x0 : Arr2 ℝ) (hx0 : HasShape x0 n k) (maxiter : Nat)
    (res : LobpcgResult ℝ) (hist : List (Iterate ℝ))
    (h : lobpcgRun eig P x0 maxiter = .ok (res, hist)) (b : Lobpcg ℝ) (hb : Returned res b) (j : Fin k)
    (hv : ∃ i : Fin n, b.eigvecs.get i j ≠ 0) :
    ∃ μ rn : ℝ, (∃ u : Fin n → ℝ, u ≠ 0 ∧ A.mulVec u = μ • u) ∧ b.rnorm[j.val]? = some rn ∧
      |μ - b.eigvals.get j| * Real.sqrt (∑ i : Fin n, b.eigvecs.get i j ^ 2) ≤ rn := by
  have h1 := C44_true_residuals A eig P hA x0 hx0 maxiter res hist h b hb j
  obtain ⟨i, hi⟩ := hv
  obtain ⟨μ, h2, h3⟩ := residual_bound hs (fun i : Fin n => b.eigvecs.get i j) (b.eigvals.get j)
    (fun h => hi (congrFun h i))
  exact ⟨μ, _, h2, h1, h3⟩

/-- C60 for the iterator: every value yielded is within `1/10`, divided by the length of its vector, of an
eigenvalue of the matrix. -/
theorem C60_iterator {ρ : Type} {n : Nat} (eig : EigSolver ℝ) (R : RandomSource ℝ ρ)
    (it it' : TruncatedEigIterator ℝ ρ) (ht : HasShape it.eig.problem n n)
    (hs : (toMat n n it.eig.problem).IsSymm) (hst : 1 ≤ it.stepSize)
    (vals : Arr1 ℝ) (vecs : Arr2 ℝ) (h : it.next eig R = .ok (some (vals, vecs), it'))
    (j : Fin vals.len) (hv : ∃ i : Fin n, vecs.get i j ≠ 0) :
    ∃ μ : ℝ, (∃ u : Fin n → ℝ, u ≠ 0 ∧ (toMat n n it.eig.problem).mulVec u = μ • u) ∧
      |μ - vals.get j| * Real.sqrt (∑ i : Fin n, vecs.get i j ^ 2) ≤ 1 / 10 := by
  have h1 := C52_residuals_real eig R it it' ht hst vals vecs h j
  obtain ⟨i, hi⟩ := hv
  obtain ⟨μ, h2, h3⟩ := residual_bound hs (fun i : Fin n => vecs.get i j) (vals.get j)
    (fun h => hi (congrFun h i))
  exact ⟨μ, h2, h3.trans h1⟩

end LinfaLinalg
