import Verif.Props.LobpcgRitz
import Verif.Props.Eigh
import Verif.Proofs.EighExample

/-! # C45 with the eigensolver of the code

`lobpcg` scales the eigenvectors of the Gram matrix by the roots of the eigenvalues, so it matters that `eigh_into` pairs
them correctly. It does, unless two eigenvalues of the Gram matrix are small (C30). -/

set_option linter.unusedSectionVars false

namespace LinfaLinalg

open Matrix

/-- Any two eigenvalues of the symmetric matrix `B` add up to `t` or more. -/
def TwoValues (t : ℝ) (B : Arr2 ℝ) : Prop :=
  ∀ x y : Fin B.nr → ℝ, x ⬝ᵥ x = 1 → y ⬝ᵥ y = 1 → x ⬝ᵥ y = 0 →
    t ≤ x ⬝ᵥ (toMat B.nr B.nr B).mulVec x + y ⬝ᵥ (toMat B.nr B.nr B).mulVec y

/-- A diagonal entry of a transformed matrix. -/
theorem conj_entry {s : Nat} (V M : Matrix (Fin s) (Fin s) ℝ) (i j : Fin s) :
    (Vᵀ * M * V) i j = (fun r => V r i) ⬝ᵥ M.mulVec fun r => V r j := by
  rw [Matrix.mul_assoc, Matrix.mul_apply]
  rfl

/-- The error of `eigh_into` on a matrix with `s` rows, relative to the norm. -/
noncomputable def eighErr (s : Nat) : ℝ := 2 * (s - 1 : Nat) * (2 : ℝ)⁻¹ ^ 52

/-- `eigh_into` on a matrix without two small eigenvalues pairs every value with its vector. -/
theorem eighInto_paired {s : Nat} (fuel : Nat) {B V : Arr2 ℝ} {w : Arr1 ℝ} (sB : HasShape B s s)
    (hB : (toMat s s B).IsSymm) (h : eighInto fuel B = .ok (w, V)) {t : ℝ}
    (ht : ∀ x y : Fin s → ℝ, x ⬝ᵥ x = 1 → y ⬝ᵥ y = 1 → x ⬝ᵥ y = 0 →
      t ≤ x ⬝ᵥ (toMat s s B).mulVec x + y ⬝ᵥ (toMat s s B).mulVec y)
    (hm : ∀ i j : Fin s, (1 + 2 * (2 : ℝ)⁻¹ ^ 52) * |toMat s s B i j| + 2 * (eighErr s * frob (toMat s s B)) < t) :
    frob ((toMat s s V)ᵀ * toMat s s B * toMat s s V - Matrix.diagonal fun i : Fin s => w.get i) ≤
      eighErr s * frob (toMat s s B) := by
  have conv : ∀ f : Fin s → ℝ, (toMat s s V)ᵀ * toMat s s V = 1 →
      frob ((toMat s s V)ᵀ * toMat s s B * toMat s s V - Matrix.diagonal f) =
      frob (toMat s s B - toMat s s V * Matrix.diagonal f * (toMat s s V)ᵀ) := by
    intro f oV
    rw [← frob_conj_orth oV (toMat s s B - toMat s s V * Matrix.diagonal f * (toMat s s V)ᵀ)]
    congr 1
    rw [Matrix.mul_sub, Matrix.sub_mul]
    congr 1
    simp only [Matrix.mul_assoc, oV, Matrix.mul_one]
    rw [← Matrix.mul_assoc, oV, Matrix.one_mul]
  obtain ⟨-, -, oV⟩ := eighInto_orth fuel s B w V sB hB h
  obtain ⟨σ, h1, -⟩ := C30_eigh_pairs_partial fuel B sB hB w V h
  rw [← conv _ oV] at h1
  have hd : ∀ i : Fin s, (fun r => toMat s s V r i) ⬝ᵥ (toMat s s B).mulVec (fun r => toMat s s V r i) - eighErr s * frob (toMat s s B) ≤
        w.get (σ i) := by
    intro i
    have := (abs_le_frob _ i i).trans h1
    rw [Matrix.sub_apply, Matrix.diagonal_apply_eq, conj_entry] at this
    have := (abs_le.1 this).2
    unfold eighErr
    linarith
  have ho : ∀ i j : Fin s, (fun r => toMat s s V r i) ⬝ᵥ (fun r => toMat s s V r j) = if i = j then 1 else 0 := by
    intro i j
    have := congrFun (congrFun oV i) j
    rw [Matrix.mul_apply, Matrix.one_apply] at this
    exact this
  rw [conv _ oV]
  refine C30_eigh_separated_partial fuel B sB hB w V h fun k l i j hkl => ?_
  have e1 := hd (σ.symm k)
  have e2 := hd (σ.symm l)
  rw [Equiv.apply_symm_apply] at e1 e2
  have e3 := ht _ _ (by rw [ho (σ.symm k), if_pos rfl]) (by rw [ho (σ.symm l), if_pos rfl])
    (by rw [ho (σ.symm k) (σ.symm l), if_neg (fun e => hkl (σ.symm.injective e))])
  have := hm i j
  have := le_abs_self (w.get k)
  have := le_abs_self (w.get l)
  linarith

/-- C45 with `eigh_into`: an iterate is orthonormal up to the error of `eigh_into` divided by the smallest eigenvalue of the
Gram matrix, unless two eigenvalues of the Gram matrix add up to no more than its largest entry. -/
theorem C45_eigh_separated {n k : Nat} {A : Matrix (Fin n) (Fin n) ℝ} (hs : A.IsSymm) (fuel : Nat)
    {P : LobParams ℝ} (hA : IsOperator A P) {x0 : Arr2 ℝ} (hx0 : HasShape x0 n k) {maxiter : Nat}
    {res : LobpcgResult ℝ} {hist : List (Iterate ℝ)}
    (h : lobpcgRun (eighInto fuel) P x0 maxiter = .ok (res, hist)) (it : Iterate ℝ) (hit : it ∈ hist) (B : Arr2 ℝ)
    (hB : it.gram = some B) (e t μ : ℝ) (he : e = eighErr B.nr * frob (toMat B.nr B.nr B)) (ht : TwoValues t B)
    (hm : ∀ i j : Fin B.nr, (1 + 2 * (2 : ℝ)⁻¹ ^ 52) * |toMat B.nr B.nr B i j| + 2 * e < t)
    (hμ : condFloor ≤ μ) (hc : WellConditioned (μ + e) B) :
    frob ((toMat n k it.pairs.eigvecs)ᵀ * toMat n k it.pairs.eigvecs - 1) ≤ e / μ := by
  rcases iterate_gram hs (eighInto_orth fuel) hA hx0 h it hit with ⟨h1, -⟩ | ⟨s, B', h1, sB, hS, h2⟩
  · rw [h1] at hB; cases hB
  · rw [h1] at hB
    cases hB
    obtain rfl : s = B.nr := sB.1.symm
    subst he
    refine h2 μ _ hμ fun w V hw => ?_
    have hp := eighInto_paired fuel sB hS hw ht hm
    refine ⟨fun i => ?_, hp⟩
    obtain ⟨-, -, oV⟩ := eighInto_orth fuel _ B w V sB hS hw
    have g1 := (abs_le_frob _ i i).trans hp
    rw [Matrix.sub_apply, Matrix.diagonal_apply_eq, conj_entry] at g1
    have g2 := hc fun r => toMat B.nr B.nr V r i
    have g3 : (fun r => toMat B.nr B.nr V r i) ⬝ᵥ (fun r => toMat B.nr B.nr V r i) = 1 := by
      have := congrFun (congrFun oV i) i
      rw [Matrix.mul_apply, Matrix.one_apply_eq] at this
      exact this
    rw [g3, mul_one] at g2
    have := (abs_le.1 g1).2
    linarith

/-- The quadratic form of a matrix is bounded by its norm. -/
theorem quad_le_frob {s : Nat} (M : Matrix (Fin s) (Fin s) ℝ) (x : Fin s → ℝ) : |x ⬝ᵥ M.mulVec x| ≤ frob M * (x ⬝ᵥ x) := by
  have h1 : x ⬝ᵥ M.mulVec x = ∑ i, ∑ j, M i j * (x i * x j) := by
    simp only [dotProduct, Matrix.mulVec, Finset.mul_sum]
    refine Finset.sum_congr rfl fun i _ => Finset.sum_congr rfl fun j _ => by ring
  have h2 : (∑ p : Fin s × Fin s, M p.1 p.2 * (x p.1 * x p.2)) ^ 2 ≤
      (∑ p : Fin s × Fin s, M p.1 p.2 ^ 2) * ∑ p : Fin s × Fin s, (x p.1 * x p.2) ^ 2 := Finset.sum_mul_sq_le_sq_mul_sq _ _ _
  have h3 : ∑ p : Fin s × Fin s, (x p.1 * x p.2) ^ 2 = (x ⬝ᵥ x) ^ 2 := by
    rw [Fintype.sum_prod_type, sq, dotProduct, Finset.sum_mul_sum]
    refine Finset.sum_congr rfl fun i _ => Finset.sum_congr rfl fun j _ => by ring
  have hx : 0 ≤ x ⬝ᵥ x := Finset.sum_nonneg fun i _ => mul_self_nonneg _
  rw [h1, ← Fintype.sum_prod_type']
  refine abs_le_of_sq_le_sq ?_ (mul_nonneg (frob_nonneg _) hx)
  refine h2.trans (le_of_eq ?_)
  have h4 : frob M ^ 2 = ∑ i, ∑ j, M i j ^ 2 :=
    Real.sq_sqrt (Finset.sum_nonneg fun i _ => Finset.sum_nonneg fun j _ => sq_nonneg _)
  rw [h3, mul_pow, h4, Fintype.sum_prod_type]

/-- C45 with `eigh_into`: as long as the Gram matrix is within `1/4` of the identity, the iterate is orthonormal up to
`2⁻⁵⁰ s²`, where `s ≤ 2²⁰` is the number of vectors in the basis. -/
theorem C45_eigh_close {n k : Nat} {A : Matrix (Fin n) (Fin n) ℝ} (hs : A.IsSymm) (fuel : Nat)
    {P : LobParams ℝ} (hA : IsOperator A P) {x0 : Arr2 ℝ} (hx0 : HasShape x0 n k) {maxiter : Nat}
    {res : LobpcgResult ℝ} {hist : List (Iterate ℝ)}
    (h : lobpcgRun (eighInto fuel) P x0 maxiter = .ok (res, hist)) (it : Iterate ℝ) (hit : it ∈ hist) (B : Arr2 ℝ)
    (hB : it.gram = some B) (hd : frob (toMat B.nr B.nr B - 1) ≤ 1 / 4) (hn : B.nr ≤ 2 ^ 20) :
    frob ((toMat n k it.pairs.eigvecs)ᵀ * toMat n k it.pairs.eigvecs - 1) ≤ (2 : ℝ)⁻¹ ^ 50 * (B.nr : ℝ) ^ 2 := by
  set M := toMat B.nr B.nr B with hM
  set e := eighErr B.nr * frob M with he
  have q : ∀ x : Fin B.nr → ℝ, 3 / 4 * (x ⬝ᵥ x) ≤ x ⬝ᵥ M.mulVec x := by
    intro x
    have h1 := quad_le_frob (M - 1) x
    rw [Matrix.sub_mulVec, Matrix.one_mulVec, dotProduct_sub] at h1
    have hx : 0 ≤ x ⬝ᵥ x := Finset.sum_nonneg fun i _ => mul_self_nonneg _
    have h2 := (abs_le.1 h1).1
    have h3 : frob (M - 1) * (x ⬝ᵥ x) ≤ 1 / 4 * (x ⬝ᵥ x) := mul_le_mul_of_nonneg_right hd hx
    linarith
  have hf : frob M ≤ B.nr + 1 / 4 := by
    have : M = 1 + (M - 1) := by abel
    rw [this]
    exact (frob_add_le _ _).trans (add_le_add frob_one_le hd)
  have hs0 : (0 : ℝ) ≤ B.nr := Nat.cast_nonneg _
  have he0 : 0 ≤ e := mul_nonneg (by unfold eighErr; positivity) (frob_nonneg _)
  -- the error of the eigensolver
  have he1 : e ≤ (2 : ℝ)⁻¹ ^ 51 * (B.nr : ℝ) ^ 2 := by
    by_cases hs1 : B.nr = 0
    · have : e = 0 := by rw [he, show eighErr B.nr = 0 by unfold eighErr; rw [hs1]; norm_num, zero_mul]
      rw [this]; positivity
    have e1 : ((B.nr - 1 : Nat) : ℝ) = B.nr - 1 := by
      have : 1 ≤ B.nr := by omega
      push_cast [this]; ring
    rw [he]
    unfold eighErr
    rw [e1]
    have : (1 : ℝ) ≤ B.nr := by exact_mod_cast Nat.one_le_iff_ne_zero.2 hs1
    have e2 : ((B.nr : ℝ) - 1) * frob M ≤ (B.nr : ℝ) ^ 2 := by
      refine (mul_le_mul_of_nonneg_left hf (by linarith)).trans ?_
      nlinarith
    calc 2 * ((B.nr : ℝ) - 1) * (2 : ℝ)⁻¹ ^ 52 * frob M = 2 * (2 : ℝ)⁻¹ ^ 52 * (((B.nr : ℝ) - 1) * frob M) := by ring
      _ ≤ 2 * (2 : ℝ)⁻¹ ^ 52 * (B.nr : ℝ) ^ 2 := mul_le_mul_of_nonneg_left e2 (by positivity)
      _ = _ := by norm_num
  have hs2 : (B.nr : ℝ) ^ 2 ≤ 2 ^ 40 := by
    have : (B.nr : ℝ) ≤ 2 ^ 20 := by exact_mod_cast hn
    nlinarith
  have he2 : e ≤ 1 / 1000 := by
    refine he1.trans ((mul_le_mul_of_nonneg_left hs2 (by positivity)).trans ?_)
    norm_num
  have hent : ∀ i j : Fin B.nr, |M i j| ≤ 5 / 4 := by
    intro i j
    have h1 := (abs_le_frob (M - 1) i j).trans hd
    rw [Matrix.sub_apply] at h1
    have h2 : |(1 : Matrix (Fin B.nr) (Fin B.nr) ℝ) i j| ≤ 1 := by
      rw [Matrix.one_apply]; split_ifs <;> norm_num
    calc |M i j| = |(M i j - (1 : Matrix (Fin B.nr) (Fin B.nr) ℝ) i j) + (1 : Matrix (Fin B.nr) (Fin B.nr) ℝ) i j| := by ring_nf
      _ ≤ 1 / 4 + 1 := (abs_add_le _ _).trans (add_le_add h1 h2)
      _ = _ := by norm_num
  have := C45_eigh_separated hs fuel hA hx0 h it hit B hB e (3 / 2) (1 / 2) rfl
    (fun x y hx hy _ => by
      have h1 := q x
      have h2 := q y
      rw [hx] at h1
      rw [hy] at h2
      change 3 / 2 ≤ x ⬝ᵥ M.mulVec x + y ⬝ᵥ M.mulVec y
      linarith)
    (fun i j => by
      have h1 := hent i j
      have : (1 + 2 * (2 : ℝ)⁻¹ ^ 52) * |M i j| ≤ (1 + 2 * (2 : ℝ)⁻¹ ^ 52) * (5 / 4) :=
        mul_le_mul_of_nonneg_left h1 (by positivity)
      have h3 : (1 + 2 * (2 : ℝ)⁻¹ ^ 52) * (5 / 4 : ℝ) ≤ 13 / 10 := by norm_num
      change (1 + 2 * (2 : ℝ)⁻¹ ^ 52) * |M i j| + 2 * e < 3 / 2
      linarith)
    (by norm_num [condFloor])
    (fun x => by
      have h1 := q x
      have hx : 0 ≤ x ⬝ᵥ x := Finset.sum_nonneg fun i _ => mul_self_nonneg _
      change (1 / 2 + e) * (x ⬝ᵥ x) ≤ x ⬝ᵥ M.mulVec x
      nlinarith)
  refine this.trans ?_
  have e5 : (2 : ℝ)⁻¹ ^ 50 * (B.nr : ℝ) ^ 2 = 2 * ((2 : ℝ)⁻¹ ^ 51 * (B.nr : ℝ) ^ 2) := by
    rw [← mul_assoc]; norm_num
  rw [e5]
  linarith

/-- The second iterate of every run meets the hypotheses of `C45_eigh_close`: its Gram matrix is the identity. -/
example {n k : Nat} {A : Matrix (Fin n) (Fin n) ℝ} (hs : A.IsSymm) (fuel : Nat) {P : LobParams ℝ} (hA : IsOperator A P)
    {x0 : Arr2 ℝ} (hx0 : HasShape x0 n k) {maxiter : Nat} {res : LobpcgResult ℝ} {hist : List (Iterate ℝ)}
    (h : lobpcgRun (eighInto fuel) P x0 maxiter = .ok (res, hist)) (it1 : Iterate ℝ) (h1 : hist[1]? = some it1) :
    ∃ B, it1.gram = some B ∧ frob (toMat B.nr B.nr B - 1) ≤ 1 / 4 := by
  obtain ⟨B, h2, h3⟩ := (gram_two hs (eighInto_orth fuel) hA hx0 h).2 it1 h1
  refine ⟨B, h2, ?_⟩
  rw [h3, sub_self]
  have : frob (0 : Matrix (Fin B.nr) (Fin B.nr) ℝ) = 0 := by simp [frob]
  rw [this]
  norm_num

/-- A Gram matrix other than the identity that meets the hypotheses, on which `eigh_into` returns. -/
example : ∃ w V, eighInto 1 (ofRows 2 2 [[1, 1 / 8], [1 / 8, 1]] : Arr2 ℝ) = .ok (w, V) ∧
    frob (toMat 2 2 (ofRows 2 2 [[1, 1 / 8], [1 / 8, 1]]) - 1) ≤ 1 / 4 ∧
    WellConditioned (3 / 4) (ofRows 2 2 [[1, 1 / 8], [1 / 8, 1]]) := by
  obtain ⟨⟨w, V⟩, h⟩ := eigh_two (ofRows 2 2 [[1, 1 / 8], [1 / 8, 1]]) ⟨rfl, rfl⟩
  refine ⟨w, V, h, ?_, ?_⟩
  · rw [frob, Real.sqrt_le_left (by norm_num)]
    simp [Fin.sum_univ_two, ofRows, Matrix.one_apply]
    norm_num
  · intro x
    change 3 / 4 * (∑ i : Fin 2, x i * x i) ≤ ∑ i : Fin 2, x i * ∑ j : Fin 2, _ * x j
    simp [Fin.sum_univ_two, ofRows]
    nlinarith [sq_nonneg (x (0 : Fin 2) + x (1 : Fin 2)), sq_nonneg (x (0 : Fin 2)), sq_nonneg (x (1 : Fin 2))]

end LinfaLinalg
