import Verif.Proofs.Triangular
import Verif.Spec.Real
import Mathlib.LinearAlgebra.Matrix.Block

/-! # The triangular solver over the reals -/

set_option linter.unusedSimpArgs false

namespace LinfaLinalg

/-- The matrix solved by `solveTriangularSystem`: off-diagonal part of the chosen triangle of `a`,
diagonal `d`. -/
def triMat (n : Nat) (uplo : UPLO) (a : Arr2 ℝ) (d : Nat → ℝ) : Matrix (Fin n) (Fin n) ℝ :=
  Matrix.of fun i j => if i = j then d i else if InTri uplo i j then a.get i j else 0

/-- Entries of `triMat` on natural-number indices. -/
noncomputable def triEnt (uplo : UPLO) (a : Arr2 ℝ) (d : Nat → ℝ) (i j : Nat) : ℝ :=
  if i = j then d i else if InTri uplo i j then a.get i j else 0

/-- Invariant of the elimination: `S` is the set of rows already solved. -/
private def ElimInv (n : Nat) (uplo : UPLO) (a : Arr2 ℝ) (d : Nat → ℝ) (B : Nat → ℝ)
    (S : Nat → Prop) [DecidablePred S] (x : Nat → ℝ) : Prop :=
  ∀ r, r < n → (if S r then 0 else x r) +
    ∑ c ∈ Finset.range n, (if S c then triEnt uplo a d r c * x c else 0) = B r

private theorem elimInv_step {n : Nat} {uplo : UPLO} {a : Arr2 ℝ} {d : Nat → ℝ} {B : Nat → ℝ}
    {S : Nat → Prop} [DecidablePred S] {x : Nat → ℝ} {i : Nat} (hi : i < n) (hiS : ¬ S i)
    (hd : d i ≠ 0)
    (hrows : ∀ r, r < n → r ≠ i → (¬ S r ↔ ((elimRows uplo i n).1 ≤ r ∧ r < (elimRows uplo i n).2)))
    (htri : ∀ r, r < n → r ≠ i → (¬ S r ↔ InTri uplo r i))
    (S' : Nat → Prop) [DecidablePred S'] (hS' : ∀ r, r < n → (S' r ↔ S r ∨ r = i))
    (h : ElimInv n uplo a d B S x) :
    ElimInv n uplo a d B S' (elimStep a d (elimRows uplo) n x i) := by
  set y := elimStep a d (elimRows uplo) n x i with hy
  have yi : y i = x i / d i := by simp [hy, elimStep]
  have yS : ∀ r, r < n → S r → y r = x r := by
    intro r hr hS
    have hri : r ≠ i := by rintro rfl; exact hiS hS
    have := (hrows r hr hri)
    simp only [hy, elimStep]
    rw [if_neg hri, if_neg (by rw [← this]; simpa using hS)]
  have yN : ∀ r, r < n → r ≠ i → ¬ S r → y r = x r - x i / d i * a.get r i := by
    intro r hr hri hS
    have := (hrows r hr hri).1 hS
    simp only [hy, elimStep]
    rw [if_neg hri, if_pos this]; ring
  have hsum : ∀ r, ∑ c ∈ Finset.range n, (if S' c then triEnt uplo a d r c * y c else 0) =
      (∑ c ∈ Finset.range n, (if S c then triEnt uplo a d r c * x c else 0)) +
        triEnt uplo a d r i * (x i / d i) := by
    intro r
    have : ∀ c ∈ Finset.range n, (if S' c then triEnt uplo a d r c * y c else 0) =
        (if S c then triEnt uplo a d r c * x c else 0) +
          (if c = i then triEnt uplo a d r i * (x i / d i) else 0) := by
      intro c hc
      rw [Finset.mem_range] at hc
      by_cases hci : c = i
      · subst hci
        rw [if_pos ((hS' c hc).2 (Or.inr rfl)), if_neg hiS, if_pos rfl, yi]; ring
      · rw [if_neg hci, add_zero]
        by_cases hS : S c
        · rw [if_pos ((hS' c hc).2 (Or.inl hS)), if_pos hS, yS c hc hS]
        · rw [if_neg (by rw [hS' c hc]; tauto), if_neg hS]
    rw [Finset.sum_congr rfl this, Finset.sum_add_distrib, Finset.sum_ite_eq' (Finset.range n) i,
      if_pos (Finset.mem_range.2 hi)]
  intro r hr
  rw [hsum r]
  have hinv := h r hr
  by_cases hri : r = i
  · subst hri
    rw [if_pos ((hS' r hr).2 (Or.inr rfl))]
    rw [if_neg hiS] at hinv
    have : triEnt uplo a d r r * (x r / d r) = x r := by
      unfold triEnt; rw [if_pos rfl]; field_simp
    rw [this]; linarith
  · by_cases hS : S r
    · rw [if_pos ((hS' r hr).2 (Or.inl hS))]
      rw [if_pos hS] at hinv
      have : triEnt uplo a d r i = 0 := by
        unfold triEnt
        rw [if_neg hri, if_neg (by rw [← htri r hr hri]; simpa using hS)]
      rw [this]; linarith
    · rw [if_neg (by rw [hS' r hr]; tauto), yN r hr hri hS]
      rw [if_neg hS] at hinv
      have : triEnt uplo a d r i = a.get r i := by
        unfold triEnt
        rw [if_neg hri, if_pos ((htri r hr hri).1 hS)]
      rw [this]; linarith

private theorem elim_lower {n : Nat} {a : Arr2 ℝ} {d : Nat → ℝ} (x : Nat → ℝ)
    (hd : ∀ i, i < n → d i ≠ 0) (m : Nat) (hm : m ≤ n) :
    ElimInv n .lower a d x (fun r => r < m)
      ((List.range' 0 m).foldl (elimStep a d (elimRows .lower) n) x) := by
  induction m with
  | zero => intro r hr; simp
  | succ m ih =>
    rw [List.range'_concat, List.foldl_append, Nat.zero_add, Nat.one_mul]
    simp only [List.foldl_cons, List.foldl_nil]
    refine elimInv_step (S := fun r => r < m) (by omega) (by simp) (hd m (by omega)) ?_ ?_ _ ?_
      (ih (by omega))
    · intro r hr hri; simp only [elimRows]; omega
    · intro r hr hri; simp only [inTri_upper, inTri_lower]; omega
    · intro r hr; omega

private theorem elim_upper {n : Nat} {a : Arr2 ℝ} {d : Nat → ℝ} (x : Nat → ℝ)
    (hd : ∀ i, i < n → d i ≠ 0) (lo m : Nat) (hm : lo + m = n) :
    ElimInv n .upper a d x (fun r => lo ≤ r)
      ((List.range' lo m).reverse.foldl (elimStep a d (elimRows .upper) n) x) := by
  induction m generalizing lo with
  | zero =>
    intro r hr
    have : ∀ c ∈ Finset.range n, (if lo ≤ c then triEnt .upper a d r c * x c else 0) = 0 := by
      intro c hc; rw [Finset.mem_range] at hc; rw [if_neg (by omega)]
    simp only [List.range'_zero, List.reverse_nil, List.foldl_nil]
    rw [Finset.sum_eq_zero this, if_neg (by omega), add_zero]
  | succ m ih =>
    rw [List.range'_succ, List.reverse_cons, List.foldl_append]
    simp only [List.foldl_cons, List.foldl_nil]
    refine elimInv_step (S := fun r => lo + 1 ≤ r) (by omega) (by simp) (hd lo (by omega)) ?_ ?_ _
      ?_ (ih (lo + 1) (by omega))
    · intro r hr hri; simp only [elimRows]; omega
    · intro r hr hri; simp only [inTri_upper, inTri_lower]; omega
    · intro r hr; omega

/-- The pure elimination solves the triangular system. -/
theorem elim_solves {n : Nat} {a : Arr2 ℝ} {d : Nat → ℝ} (uplo : UPLO) (x : Nat → ℝ)
    (hd : ∀ i, i < n → d i ≠ 0) (r : Nat) (hr : r < n) :
    ∑ c ∈ Finset.range n, triEnt uplo a d r c *
      ((elimOrder uplo n).foldl (elimStep a d (elimRows uplo) n) x) c = x r := by
  cases uplo with
  | lower =>
    have := elim_lower (a := a) x hd n le_rfl r hr
    rw [if_pos hr, zero_add] at this
    rw [← this]
    apply Finset.sum_congr rfl
    intro c hc
    rw [if_pos (Finset.mem_range.1 hc)]
    rfl
  | upper =>
    have := elim_upper (a := a) x hd 0 n (by omega) r hr
    rw [if_pos (Nat.zero_le _), zero_add] at this
    rw [← this]
    apply Finset.sum_congr rfl
    intro c hc
    rw [if_pos (Nat.zero_le _)]
    rfl

theorem triMat_det {n : Nat} {a : Arr2 ℝ} {d : Nat → ℝ} (uplo : UPLO) :
    (triMat n uplo a d).det = ∏ i : Fin n, d i := by
  cases uplo with
  | upper =>
    rw [Matrix.det_of_isUpperTriangular]
    · apply Finset.prod_congr rfl; intro i _; simp [triMat]
    · intro i j hij
      simp only [id] at hij
      have h1 : i ≠ j := by rintro rfl; exact lt_irrefl _ hij
      have h2 : ¬ (i ≤ j) := by simpa using hij
      simp [triMat, h1, h2]
  | lower =>
    rw [Matrix.det_of_isLowerTriangular]
    · apply Finset.prod_congr rfl; intro i _; simp [triMat]
    · intro i j hij
      have hij : i < j := hij
      have h1 : i ≠ j := by rintro rfl; exact lt_irrefl _ hij
      have h2 : ¬ (j ≤ i) := by simpa using hij
      simp [triMat, h1, h2]

theorem triMat_isUnit {n : Nat} {a : Arr2 ℝ} {d : Nat → ℝ} (uplo : UPLO)
    (hd : ∀ i, i < n → d i ≠ 0) : IsUnit (triMat n uplo a d) := by
  rw [Matrix.isUnit_iff_isUnit_det, triMat_det, isUnit_iff_ne_zero, Finset.prod_ne_zero_iff]
  intro i _
  exact hd i i.2

/-- `solveTriangularSystem` with diagonal `d` solves the system with matrix `triMat`. -/
theorem solveTriangularSystem_correct {n m : Nat} (a b : Arr2 ℝ) (uplo : UPLO) (diag : Nat → M ℝ)
    (d : Nat → ℝ) (ha : HasShape a n n) (hb : HasShape b n m)
    (hdiag : ∀ i, i < n → diag i = .ok (d i)) (hd : ∀ i, i < n → d i ≠ 0) :
    ∃ x, solveTriangularSystem a b uplo diag = .ok x ∧ HasShape x n m ∧
      triMat n uplo a d * toMat n m x = toMat n m b := by
  obtain ⟨rfl, ha2⟩ := ha
  obtain ⟨hb1, rfl⟩ := hb
  refine ⟨_, solveTriangularSystem_eq a b uplo diag d ha2.symm hb1 hdiag, ⟨hb1, rfl⟩, ?_⟩
  ext i j
  rw [Matrix.mul_apply, toMat_apply, ← elim_solves uplo (fun r => b.get r j) hd i i.2 (a := a),
    Finset.sum_range]
  apply Finset.sum_congr rfl
  intro c _
  simp only [toMat_apply, j.2, if_true]
  congr 1
  simp [triMat, triEnt, Fin.ext_iff]

end LinfaLinalg
