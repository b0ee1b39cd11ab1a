import Verif.Proofs.Svd
import Verif.Proofs.GivensReal
import Verif.Proofs.EighReal
import Verif.Spec.Frob

/-! # `svd` over the reals: the matrices -/

namespace LinfaLinalg

open Matrix

/-! ## An upper bidiagonal matrix with one extra entry -/

/-- Upper bidiagonal with diagonal `d`, off-diagonal `e`, plus `y` at `(a, b)`. -/
def biF (d e : Nat → ℝ) (a b : Nat) (y : ℝ) (r k : Nat) : ℝ :=
  (if r = k then d r else if k = r + 1 then e r else 0) + (if r = a ∧ k = b then y else 0)

/-- `biF` as a matrix. -/
def biM (n : Nat) (d e : Nat → ℝ) (a b : Nat) (y : ℝ) : Matrix (Fin n) (Fin n) ℝ :=
  Matrix.of fun r k => biF d e a b y r k

/-- Upper bidiagonal matrix. -/
def biD (n : Nat) (d e : Nat → ℝ) : Matrix (Fin n) (Fin n) ℝ :=
  Matrix.of fun r k =>
    if (r : Nat) = k then d r else if (k : Nat) = r + 1 then e r else 0

theorem biM_zero (n : Nat) (d e : Nat → ℝ) (a b : Nat) : biM n d e a b 0 = biD n d e := by
  ext r k
  simp only [biM, biD, biF, Matrix.of_apply, ite_self, add_zero]

theorem biM_out (n : Nat) (d e : Nat → ℝ) (a b : Nat) (y : ℝ) (hb : n ≤ b) :
    biM n d e a b y = biD n d e := by
  ext r k
  simp only [biM, biD, biF, Matrix.of_apply]
  rw [if_neg (c := (r : Nat) = a ∧ (k : Nat) = b) (by have := k.2; omega), add_zero]

/-- The extra entry at a place of the off-diagonal that is zero. -/
theorem biM_off (n : Nat) (d e : Nat → ℝ) (i : Nat) :
    biM n d (zeroAt e i) i (i + 1) (e i) = biD n d e := by
  ext r k
  simp only [biM, biD, biF, Matrix.of_apply, zeroAt]
  split_ifs <;> first | omega | simp | (subst_vars; simp)
  all_goals simp_all

theorem biD_congr {n : Nat} {d e d' e' : Nat → ℝ} (hd : ∀ k, k < n → d k = d' k)
    (he : ∀ k, k + 1 < n → e k = e' k) : biD n d e = biD n d' e' := by
  ext r k
  simp only [biD, Matrix.of_apply]
  have := r.2
  have := k.2
  split_ifs <;> first | rfl | exact hd _ (by omega) | exact he _ (by omega)

/-- Decide `if`s whose conditions are linear arithmetic. -/
local macro "ifs" : tactic => `(tactic| simp (disch := omega) only [if_pos, if_neg, if_true, if_false, and_self,
  true_and, and_true, false_and, and_false])

/-- One step of `cancel_horizontal_off_diagonal_elt`. -/
theorem hstep_matrix {n i k : Nat} (hik : i ≤ k) (hk : k + 1 < n) {c s v y' : ℝ}
    {d e d' e' : Nat → ℝ} (hdi : d i = 0) (hei : e i = 0) (hv : c * v - s * d (k + 1) = 0)
    (hd : ∀ j, j ≠ k + 1 → d' j = d j) (hd1 : d' (k + 1) = s * v + c * d (k + 1))
    (he : ∀ j, j ≠ k + 1 → e' j = e j) (he1 : k + 2 < n → e' (k + 1) = e (k + 1) * c)
    (hy : k + 2 < n → y' = -s * e (k + 1)) :
    rotM n i (k + 1) c s * biM n d e i (k + 1) v = biM n d' e' i (k + 2) y' := by
  have hij : i ≠ k + 1 := by omega
  ext ⟨r, hr⟩ ⟨q, hq⟩
  rw [rotM_mul_apply (by omega) hk hij]
  simp only [biM, biF, Matrix.of_apply]
  by_cases h1 : r = i
  · subst h1
    simp only [hd r hij, hdi, he r hij, hei, ite_self]
    by_cases h2 : q = k + 1
    · subst h2; ifs; linear_combination hv
    · by_cases h3 : q = k + 2
      · subst h3; ifs; rw [hy (by omega)]; ring
      · ifs; ring
  · by_cases h2 : r = k + 1
    · subst h2
      simp only [hdi, hei, ite_self]
      by_cases h3 : q = k + 1
      · subst h3; ifs; rw [hd1]; ring
      · by_cases h4 : q = k + 2
        · subst h4; ifs; rw [he1 (by omega)]; ring
        · ifs; ring
    · ifs; rw [hd r h2, he r h2]

/-- One step of `cancel_vertical_off_diagonal_elt`; column `i + 1` has a zero diagonal entry. -/
theorem vstep_matrix {n i k : Nat} (hik : k ≤ i) (hi : i + 1 < n) {c s v y' : ℝ}
    {d e d' e' : Nat → ℝ} (hdi : d (i + 1) = 0) (hei : e i = 0) (hv : s * d k + c * v = 0)
    (hd : ∀ j, j ≠ k → d' j = d j) (hd1 : d' k = c * d k - s * v)
    (he : ∀ j, j + 1 ≠ k → e' j = e j) (he1 : ∀ j, j + 1 = k → e' j = e j * c)
    (hy : ∀ j, j + 1 = k → y' = s * e j) (hy0 : k = 0 → y' = 0) :
    biM n d e k (i + 1) v * rotM n k (i + 1) c (-s) = biM n d' e' (k - 1) (i + 1) y' := by
  have hij : k ≠ i + 1 := by omega
  have hE : ∀ r, (if i + 1 = r + 1 then e r else 0) = 0 := by
    intro r
    split_ifs with h
    · rw [show r = i by omega, hei]
    · rfl
  have hF : ∀ r, (if r = i + 1 then d r else if i + 1 = r + 1 then e r else 0) = 0 := by
    intro r
    rw [hE]
    split_ifs with h
    · rw [h, hdi]
    · rfl
  ext ⟨r, hr⟩ ⟨q, hq⟩
  rw [mul_rotM_apply (by omega) hi hij]
  simp only [biM, biF, Matrix.of_apply, hF]
  by_cases h1 : q = k
  · subst h1
    by_cases h2 : r = q
    · subst h2; ifs; rw [hd1]; ring
    · by_cases h3 : q = r + 1
      · ifs; rw [he1 r h3.symm]; ring
      · ifs; ring
  · by_cases h2 : q = i + 1
    · subst h2
      have hF' : (if r = i + 1 then d' r else if i + 1 = r + 1 then e' r else 0) = 0 := by
        split_ifs with h3 h4
        · rw [hd r (by omega), h3, hdi]
        · rw [he r (by omega), show r = i by omega, hei]
        · rfl
      rw [hF']
      by_cases h3 : r = k
      · subst h3
        by_cases h5 : r = 0
        · rw [hy0 h5]; ifs; linear_combination hv
        · ifs; linear_combination hv
      · by_cases h4 : k = r + 1
        · ifs; rw [hy r h4.symm]; ring
        · ifs; ring
    · by_cases h3 : r = q
      · ifs; rw [hd r (by omega)]
      · by_cases h4 : q = r + 1
        · ifs; rw [he r (by omega)]
        · ifs

/-- First half of a step of the sweep: columns `k` and `k + 1`. -/
theorem sweep_matrix1 {n k : Nat} (hk : k + 1 < n) {c s y : ℝ} {d e d' e' : Nat → ℝ}
    (hy : ∀ j, j + 1 = k → s * e j + c * y = 0)
    (hy0 : k = 0 → y = 0)
    (hd : ∀ j, j ≠ k → j ≠ k + 1 → d' j = d j) (hd1 : d' k = c * d k - s * e k)
    (hd2 : d' (k + 1) = c * d (k + 1))
    (he : ∀ j, j + 1 ≠ k → j ≠ k → e' j = e j) (he1 : ∀ j, j + 1 = k → e' j = c * e j - s * y)
    (he2 : e' k = s * d k + c * e k) :
    biM n d e (k - 1) (k + 1) y * rotM n k (k + 1) c (-s) =
      biM n d' e' (k + 1) k (-s * d (k + 1)) := by
  have hij : k ≠ k + 1 := by omega
  have hY : (if k = k - 1 then y else 0) = 0 := by
    split_ifs with h
    · exact hy0 (by omega)
    · rfl
  ext ⟨r, hr⟩ ⟨q, hq⟩
  rw [mul_rotM_apply (by omega) hk hij]
  simp only [biM, biF, Matrix.of_apply]
  by_cases h1 : q = k
  · subst h1
    by_cases h2 : r = q
    · subst h2; ifs; simp only [hY, hd1]; ring
    · by_cases h3 : r = q + 1
      · subst h3; ifs; ring
      · by_cases h4 : q = r + 1
        · ifs; rw [he1 r h4.symm]; ring
        · ifs; ring
  · by_cases h2 : q = k + 1
    · subst h2
      by_cases h3 : r = k
      · subst h3; ifs; simp only [hY, he2]; ring
      · by_cases h4 : r = k + 1
        · subst h4; ifs; rw [hd2]; ring
        · by_cases h5 : k = r + 1
          · ifs; linear_combination hy r h5.symm
          · ifs; ring
    · by_cases h3 : r = q
      · ifs; rw [hd r (by omega) (by omega)]
      · by_cases h4 : q = r + 1
        · ifs; rw [he r (by omega) (by omega)]
        · ifs

/-- Second half of a step of the sweep: rows `k` and `k + 1`. -/
theorem sweep_matrix2 {n k : Nat} (hk : k + 1 < n) {c s v y' : ℝ} {d e d' e' : Nat → ℝ}
    (hv : s * d k + c * v = 0)
    (hd : ∀ j, j ≠ k → j ≠ k + 1 → d' j = d j) (hd1 : d' k = c * d k - s * v)
    (hd2 : d' (k + 1) = s * e k + c * d (k + 1))
    (he : ∀ j, j ≠ k → j ≠ k + 1 → e' j = e j)
    (he1 : e' k = c * e k - s * d (k + 1))
    (he2 : k + 2 < n → e' (k + 1) = c * e (k + 1))
    (hy : k + 2 < n → y' = -s * e (k + 1)) :
    rotM n k (k + 1) c s * biM n d e (k + 1) k v = biM n d' e' k (k + 2) y' := by
  have hij : k ≠ k + 1 := by omega
  ext ⟨r, hr⟩ ⟨q, hq⟩
  rw [rotM_mul_apply (by omega) hk hij]
  simp only [biM, biF, Matrix.of_apply]
  by_cases h1 : r = k
  · subst h1
    by_cases h2 : q = r
    · subst h2; ifs; rw [hd1]; ring
    · by_cases h3 : q = r + 1
      · subst h3; ifs; rw [he1]; ring
      · by_cases h4 : q = r + 2
        · subst h4; ifs; rw [hy (by omega)]; ring
        · ifs; ring
  · by_cases h2 : r = k + 1
    · subst h2
      by_cases h3 : q = k
      · subst h3; ifs; linear_combination hv
      · by_cases h4 : q = k + 1
        · subst h4; ifs; rw [hd2]; ring
        · by_cases h5 : q = k + 2
          · subst h5; ifs; rw [he2 (by omega)]; ring
          · ifs; ring
    · ifs; rw [hd r h1 h2, he r h1 h2]

/-- A rotation from the left of a `2 × 2` block that the off-diagonal separates from the rest. -/
theorem block_matrix {n k : Nat} (hk : k + 1 < n) {c s v : ℝ} {d e d' e' : Nat → ℝ}
    (hd : ∀ j, j ≠ k → j ≠ k + 1 → d' j = d j) (hd1 : d' k = c * d k - s * v)
    (hd2 : d' (k + 1) = s * e k + c * d (k + 1))
    (he : ∀ j, j ≠ k → e' j = e j)
    (he1 : e' k = c * e k - s * d (k + 1))
    (hz : k + 2 < n → e (k + 1) = 0) :
    rotM n k (k + 1) c s * biM n d e (k + 1) k v = biM n d' e' (k + 1) k (s * d k + c * v) := by
  have hij : k ≠ k + 1 := by omega
  ext ⟨r, hr⟩ ⟨q, hq⟩
  rw [rotM_mul_apply (by omega) hk hij]
  simp only [biM, biF, Matrix.of_apply]
  by_cases h1 : r = k
  · subst h1
    by_cases h2 : q = r
    · subst h2; ifs; rw [hd1]; ring
    · by_cases h3 : q = r + 1
      · subst h3; ifs; rw [he1]; ring
      · by_cases h4 : q = r + 2
        · subst h4; ifs; rw [hz (by omega)]; ring
        · ifs; ring
  · by_cases h2 : r = k + 1
    · subst h2
      by_cases h3 : q = k
      · subst h3; ifs; ring
      · by_cases h4 : q = k + 1
        · subst h4; ifs; rw [hd2]; ring
        · by_cases h5 : q = k + 2
          · subst h5; ifs; rw [he (k + 1) (by omega), hz (by omega)]; ring
          · ifs; ring
    · ifs; rw [hd r h1 h2, he r h1]

end LinfaLinalg
