import Verif.Proofs.LobpcgRitz
import Verif.Proofs.LobpcgTotal

/-! # An exact eigensolver

It shows that the hypotheses `EigWithin 0` and `EigTotal` of the theorems about `lobpcg` can be met. -/

set_option linter.unusedSectionVars false

namespace LinfaLinalg

open Matrix

theorem exists_spectral {n : Nat} (A : Matrix (Fin n) (Fin n) ℝ) (hA : A.IsSymm) :
    ∃ p : (Fin n → ℝ) × Matrix (Fin n) (Fin n) ℝ, p.2ᵀ * p.2 = 1 ∧ p.2ᵀ * A * p.2 = Matrix.diagonal p.1 := by
  have hH : A.IsHermitian := by
    rw [Matrix.IsHermitian, Matrix.conjTranspose_eq_transpose_of_trivial]; exact hA
  have hQ : (hH.eigenvectorUnitary : Matrix (Fin n) (Fin n) ℝ)ᵀ * hH.eigenvectorUnitary = 1 := by
    have := (Matrix.mem_unitaryGroup_iff'.1 hH.eigenvectorUnitary.2)
    rwa [Matrix.star_eq_conjTranspose, Matrix.conjTranspose_eq_transpose_of_trivial] at this
  refine ⟨⟨hH.eigenvalues, hH.eigenvectorUnitary⟩, hQ, ?_⟩
  have hAQ : A * (hH.eigenvectorUnitary : Matrix (Fin n) (Fin n) ℝ) =
      hH.eigenvectorUnitary * Matrix.diagonal hH.eigenvalues := by
    ext a b
    have : A.mulVec (fun t => (hH.eigenvectorUnitary : Matrix (Fin n) (Fin n) ℝ) t b) =
      hH.eigenvalues b • fun t => (hH.eigenvectorUnitary : Matrix (Fin n) (Fin n) ℝ) t b :=
        hH.mulVec_eigenvectorBasis b
    have := congrFun this a
    simp only [Matrix.mulVec, dotProduct, Pi.smul_apply, smul_eq_mul] at this
    rw [Matrix.mul_apply, Matrix.mul_diagonal, this, mul_comm]
  rw [Matrix.mul_assoc, hAQ, ← Matrix.mul_assoc, hQ, Matrix.one_mul]

/-- The spectral decomposition as an eigensolver for the small problems. Not a model of any code. -/
noncomputable def exactEig : EigSolver ℝ := fun a =>
  open Classical in
  if h : (toMat a.nr a.nr a).IsSymm then
    let p := Classical.choose (exists_spectral _ h)
    .ok (⟨a.nr, fun i => if hi : i < a.nr then p.1 ⟨i, hi⟩ else 0⟩,
      ⟨a.nr, a.nr, fun i j => if hi : i < a.nr then if hj : j < a.nr then p.2 ⟨i, hi⟩ ⟨j, hj⟩ else 0 else 0⟩)
  else .ok (⟨a.nr, fun _ => 0⟩, ⟨a.nr, a.nr, fun _ _ => 0⟩)

theorem exactEig_spec {s : Nat} {a : Arr2 ℝ} {v : Arr1 ℝ} {q : Arr2 ℝ} (sa : HasShape a s s)
    (ha : (toMat s s a).IsSymm) (h : exactEig a = .ok (v, q)) :
    v.len = s ∧ HasShape q s s ∧ (toMat s s q)ᵀ * toMat s s q = 1 ∧
      (toMat s s q)ᵀ * toMat s s a * toMat s s q = Matrix.diagonal fun i : Fin s => v.get i := by
  obtain rfl := sa.1
  unfold exactEig at h
  rw [dif_pos ha] at h
  injection h with h
  simp only [Prod.mk.injEq] at h
  obtain ⟨rfl, rfl⟩ := h
  obtain ⟨h1, h2⟩ := Classical.choose_spec (exists_spectral _ ha)
  generalize Classical.choose (exists_spectral _ ha) = p at h1 h2
  have e : toMat a.nr a.nr (⟨a.nr, a.nr, fun i j => if hi : i < a.nr then
      if hj : j < a.nr then p.2 ⟨i, hi⟩ ⟨j, hj⟩ else 0 else 0⟩ : Arr2 ℝ) = p.2 := by
    ext i j
    simp [toMat]
  refine ⟨rfl, ⟨rfl, rfl⟩, ?_, ?_⟩
  · rw [e, h1]
  · rw [e, h2]
    simp

theorem exactEig_within : EigWithin 0 exactEig := by
  refine ⟨fun s a v q sa ha h => ?_, fun s a v q sa ha h => ?_⟩
  · obtain ⟨h1, h2, h3, -⟩ := exactEig_spec sa ha h
    exact ⟨h1, h2, h3⟩
  · obtain ⟨-, -, -, h4⟩ := exactEig_spec sa ha h
    rw [h4, sub_self, zero_mul]
    exact le_of_eq (by simp [frob])

theorem exactEig_ok (a : Arr2 ℝ) : ∃ v q, exactEig a = .ok (v, q) ∧ v.len = a.nr ∧ HasShape q a.nr a.nr := by
  unfold exactEig
  split_ifs with h
  · exact ⟨_, _, rfl, rfl, rfl, rfl⟩
  · exact ⟨_, _, rfl, rfl, rfl, rfl⟩

theorem exactEig_total : EigTotal exactEig := by
  intro s a _ sa
  obtain ⟨v, q, h, h1, h2⟩ := exactEig_ok a
  rw [h, ← sa.1]
  exact Tot.ok ⟨h1, NaNFree.real _, h2⟩

end LinfaLinalg
