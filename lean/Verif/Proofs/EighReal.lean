import Verif.Proofs.Eigh
import Verif.Proofs.GivensReal
import Verif.Spec.Frob
import Verif.Proofs.ScaleReal

/-! # `symmetric_eig` over the reals -/

namespace LinfaLinalg

open Matrix

/-! ## One rotation of the sweep -/

/-- Symmetric tridiagonal with diagonal `d`, off-diagonal `e`, and a bulge `y` at the positions
`(q - 1, q + 1)` and `(q + 1, q - 1)` (none if `q = 0`). -/
def triF (d e : Nat → ℝ) (q : Nat) (y : ℝ) (r k : Nat) : ℝ :=
  if r = k then d r else if r = k + 1 then e k else if k = r + 1 then e r
  else if r + 1 = q ∧ k = q + 1 ∨ k + 1 = q ∧ r = q + 1 then y else 0

theorem triF_symm (d e : Nat → ℝ) (q : Nat) (y : ℝ) (r k : Nat) :
    triF d e q y r k = triF d e q y k r := by
  unfold triF
  split_ifs <;> first | rfl | omega | (congr 1)

/-- `triF` as a matrix. -/
def triB (n : Nat) (d e : Nat → ℝ) (q : Nat) (y : ℝ) : Matrix (Fin n) (Fin n) ℝ :=
  Matrix.of fun r k => triF d e q y r k

theorem triB_zero (n : Nat) (d e : Nat → ℝ) (q : Nat) : triB n d e q 0 = tridiag n d e := by
  ext r k
  simp only [triB, tridiag, Matrix.of_apply, triF, ite_self]

theorem triB_end (n : Nat) (d e : Nat → ℝ) (q : Nat) (hq : n ≤ q + 1) (y : ℝ) :
    triB n d e q y = tridiag n d e := by
  ext r k
  simp only [triB, tridiag, Matrix.of_apply, triF]
  have := r.2
  have := k.2
  split_ifs <;> first | rfl | omega

theorem sweep_matrix {n i : Nat} (hi : i + 1 < n) {c s : ℝ} {d e d' e' : Nat → ℝ} {y y' : ℝ}
    (hd : ∀ k, k ≠ i → k ≠ i + 1 → d' k = d k)
    (hd1 : d' i = c * c * d i + s * s * d (i + 1) - 2 * (c * s * e i))
    (hd2 : d' (i + 1) = s * s * d i + c * c * d (i + 1) + 2 * (c * s * e i))
    (he : ∀ k, k ≠ i → k ≠ i + 1 → k + 1 ≠ i → e' k = e k)
    (he0 : ∀ k, k + 1 = i → e' k = c * e k - s * y)
    (hy : ∀ k, k + 1 = i → s * e k + c * y = 0)
    (he1 : e' i = c * s * (d i - d (i + 1)) + e i * (c * c - s * s))
    (he2 : e' (i + 1) = e (i + 1) * c)
    (hy' : y' = -s * e (i + 1)) :
    rotM n i (i + 1) c s * triB n d e i y * (rotM n i (i + 1) c s)ᵀ = triB n d' e' (i + 1) y' := by
  have F_i : ∀ k, k ≠ i → k ≠ i + 1 → triF d e i y i k = if k + 1 = i then e k else 0 := by
    intro k h1 h2
    unfold triF
    split_ifs <;> first | rfl | omega
  have F_i1 : ∀ k, k ≠ i → k ≠ i + 1 → triF d e i y (i + 1) k =
      if k + 1 = i then y else if k = i + 2 then e (i + 1) else 0 := by
    intro k h1 h2
    unfold triF
    split_ifs <;> first | rfl | omega
  have G_i : ∀ k, k ≠ i → k ≠ i + 1 → triF d' e' (i + 1) y' i k =
      if k + 1 = i then e' k else if k = i + 2 then y' else 0 := by
    intro k h1 h2
    unfold triF
    split_ifs <;> first | rfl | omega
  have G_i1 : ∀ k, k ≠ i → k ≠ i + 1 → triF d' e' (i + 1) y' (i + 1) k =
      if k = i + 2 then e' (i + 1) else 0 := by
    intro k h1 h2
    unfold triF
    split_ifs <;> first | rfl | omega
  have GF : ∀ r k, r ≠ i → r ≠ i + 1 → k ≠ i → k ≠ i + 1 →
      triF d' e' (i + 1) y' r k = triF d e i y r k := by
    intro r k h1 h2 h3 h4
    unfold triF
    split_ifs <;> first | rfl | omega | exact hd _ h1 h2 | exact he _ (by omega) (by omega) (by omega)
  have Fii : triF d e i y i i = d i := by simp [triF]
  have Fij : triF d e i y i (i + 1) = e i := by
    unfold triF; split_ifs <;> first | rfl | omega
  have Fji : triF d e i y (i + 1) i = e i := by
    unfold triF; split_ifs <;> first | rfl | omega
  have Fjj : triF d e i y (i + 1) (i + 1) = d (i + 1) := by simp [triF]
  have Gii : triF d' e' (i + 1) y' i i = d' i := by simp [triF]
  have Gij : triF d' e' (i + 1) y' i (i + 1) = e' i := by
    unfold triF; split_ifs <;> first | rfl | omega
  have Gji : triF d' e' (i + 1) y' (i + 1) i = e' i := by
    unfold triF; split_ifs <;> first | rfl | omega
  have Gjj : triF d' e' (i + 1) y' (i + 1) (i + 1) = d' (i + 1) := by simp [triF]
  have A1 : ∀ k, k ≠ i → k ≠ i + 1 →
      triF d' e' (i + 1) y' i k = c * triF d e i y i k - s * triF d e i y (i + 1) k := by
    intro k h1 h2
    rw [G_i k h1 h2, F_i k h1 h2, F_i1 k h1 h2]
    split_ifs with h3 h4
    · exact he0 k h3
    · rw [hy']; ring
    · ring
  have A2 : ∀ k, k ≠ i → k ≠ i + 1 →
      triF d' e' (i + 1) y' (i + 1) k = s * triF d e i y i k + c * triF d e i y (i + 1) k := by
    intro k h1 h2
    rw [G_i1 k h1 h2, F_i k h1 h2, F_i1 k h1 h2]
    split_ifs with h3 h4 h5
    · omega
    · rw [he2]; ring
    · exact (hy k (by assumption)).symm
    · ring
  have hij : i ≠ i + 1 := by omega
  have hi' : i < n := by omega
  ext ⟨r, hr⟩ ⟨k, hk⟩
  rw [rotM_transpose _ _ _ hij, mul_rotM_apply hi' hi hij]
  simp only [rotM_mul_apply hi' hi hij, triB, Matrix.of_apply, neg_neg]
  by_cases hr1 : r = i
  · subst hr1
    by_cases hk1 : k = r
    · subst hk1
      simp only [if_true, Fii, Fij, Fji, Fjj, Gii]
      rw [hd1]; ring
    · by_cases hk2 : k = r + 1
      · subst hk2
        simp only [if_true, Fii, Fij, Fji, Fjj, Gij, if_neg hk1]
        rw [he1]; ring
      · simp only [if_true, if_neg hk1, if_neg hk2]
        rw [A1 k hk1 hk2]
  · by_cases hr2 : r = i + 1
    · subst hr2
      by_cases hk1 : k = i
      · subst hk1
        simp only [if_true, Fii, Fij, Fji, Fjj, Gji, if_neg hr1]
        rw [he1]; ring
      · by_cases hk2 : k = i + 1
        · subst hk2
          simp only [if_true, Fii, Fij, Fji, Fjj, Gjj, if_neg hk1]
          rw [hd2]; ring
        · simp only [if_true, if_neg hk1, if_neg hk2, if_neg hr1]
          rw [A2 k hk1 hk2]
    · simp only [if_neg hr1, if_neg hr2]
      by_cases hk1 : k = i
      · subst hk1
        simp only [if_true]
        rw [triF_symm d' e', A1 r hr1 hr2, triF_symm d e, triF_symm d e _ _ r (k + 1)]; ring
      · by_cases hk2 : k = i + 1
        · subst hk2
          simp only [if_true, if_neg hk1]
          rw [triF_symm d' e', A2 r hr1 hr2, triF_symm d e, triF_symm d e _ _ r (i + 1)]; ring
        · simp only [if_neg hk1, if_neg hk2]
          exact (GF r k hr1 hr2 hk1 hk2).symm

/-! ## The error budget -/

/-- Number of non-zero off-diagonal entries. -/
noncomputable def cnt (n : Nat) (e : Nat → ℝ) : Nat :=
  ((Finset.range (n - 1)).filter fun k => e k ≠ 0).card

theorem cnt_le (n : Nat) (e : Nat → ℝ) : cnt n e ≤ n - 1 := by
  unfold cnt
  exact (Finset.card_filter_le _ _).trans (by simp)

theorem cnt_mono {n : Nat} {e e' : Nat → ℝ} (h : ∀ k, k < n - 1 → e' k ≠ 0 → e k ≠ 0) :
    cnt n e' ≤ cnt n e := by
  unfold cnt
  refine Finset.card_le_card ?_
  intro k hk
  rw [Finset.mem_filter, Finset.mem_range] at hk ⊢
  exact ⟨hk.1, h k hk.1 hk.2⟩

/-- `e` with entry `m` replaced by zero. -/
def zeroAt (e : Nat → ℝ) (m : Nat) : Nat → ℝ := fun k => if k = m then 0 else e k

theorem cnt_zeroAt {n m : Nat} {e : Nat → ℝ} (hm : m < n - 1) (he : e m ≠ 0) :
    cnt n (zeroAt e m) + 1 = cnt n e := by
  unfold cnt
  have : (Finset.range (n - 1)).filter (fun k => zeroAt e m k ≠ 0) =
      ((Finset.range (n - 1)).filter fun k => e k ≠ 0).erase m := by
    ext k
    simp only [Finset.mem_filter, Finset.mem_range, Finset.mem_erase, zeroAt]
    by_cases h : k = m
    · simp [h]
    · simp [h]
  rw [this, Finset.card_erase_of_mem (by simp [hm, he])]
  have : 0 < ((Finset.range (n - 1)).filter fun k => e k ≠ 0).card :=
    Finset.card_pos.2 ⟨m, by simp [hm, he]⟩
  omega

/-- The sum of squares of a matrix supported on `{a, b} × {a, b}`. -/
theorem sum_sq_block {n : Nat} (A : Matrix (Fin n) (Fin n) ℝ) (a b : Fin n) (hab : a ≠ b)
    (h : ∀ i j, (i ≠ a ∧ i ≠ b) ∨ (j ≠ a ∧ j ≠ b) → A i j = 0) :
    ∑ i, ∑ j, A i j ^ 2 = A a a ^ 2 + A a b ^ 2 + (A b a ^ 2 + A b b ^ 2) := by
  rw [Fintype.sum_eq_add a b hab]
  · rw [Fintype.sum_eq_add a b hab (fun j hj => by rw [h a j (Or.inr hj)]; ring),
      Fintype.sum_eq_add a b hab (fun j hj => by rw [h b j (Or.inr hj)]; ring)]
  · intro i hi
    refine Finset.sum_eq_zero fun j _ => ?_
    rw [h i j (Or.inl hi)]; ring

theorem diag_sq_le_frob {n : Nat} (A : Matrix (Fin n) (Fin n) ℝ) (a b : Fin n) (hab : a ≠ b) :
    A a a ^ 2 + A b b ^ 2 ≤ frob A ^ 2 := by
  rw [frob_sq]
  calc A a a ^ 2 + A b b ^ 2 ≤ (∑ j, A a j ^ 2) + ∑ j, A b j ^ 2 :=
        add_le_add
          (Finset.single_le_sum (f := fun j => A a j ^ 2) (fun _ _ => sq_nonneg _)
            (Finset.mem_univ a))
          (Finset.single_le_sum (f := fun j => A b j ^ 2) (fun _ _ => sq_nonneg _)
            (Finset.mem_univ b))
    _ = ∑ i ∈ {a, b}, ∑ j, A i j ^ 2 := by rw [Finset.sum_pair hab]
    _ ≤ _ := Finset.sum_le_sum_of_subset_of_nonneg (Finset.subset_univ _)
        (fun _ _ _ => Finset.sum_nonneg fun _ _ => sq_nonneg _)

/-- `σ` exchanges neighbouring coordinates whose entries of `d` are small. -/
def Swaps (n : Nat) (eps : ℝ) (d : Nat → ℝ) (σ : Equiv.Perm (Fin n)) : Prop :=
  ∀ k : Fin n, σ k ≠ k → σ (σ k) = k ∧ ((σ k : Nat) = k + 1 ∨ (k : Nat) = σ k + 1) ∧
    |d k| + |d (σ k)| < 1 + 2 * eps

theorem Swaps.refl (n : Nat) (eps : ℝ) (d : Nat → ℝ) : Swaps n eps d (Equiv.refl _) :=
  fun _ h => absurd rfl h

/-- Changes of `d` at fixed coordinates do not matter. -/
theorem Swaps.congr {n : Nat} {eps : ℝ} {d d' : Nat → ℝ} {σ : Equiv.Perm (Fin n)}
    (h : Swaps n eps d σ) (hd : ∀ k : Fin n, σ k ≠ k → d' k = d k) : Swaps n eps d' σ := by
  intro k hk
  obtain ⟨h1, h2, h3⟩ := h k hk
  refine ⟨h1, h2, ?_⟩
  rw [hd k hk, hd (σ k) (fun h => hk (σ.injective h))]
  exact h3

/-- One more exchange. -/
theorem Swaps.swap {n : Nat} {eps : ℝ} {d d' : Nat → ℝ} {σ : Equiv.Perm (Fin n)}
    (h : Swaps n eps d σ) {a b : Fin n} (ha : σ a = a) (hb : σ b = b) (hab : (b : Nat) = a + 1)
    (hd : ∀ k : Fin n, σ k ≠ k → d' k = d k) (hs : |d' a| + |d' b| < 1 + 2 * eps) :
    Swaps n eps d' (σ.trans (Equiv.swap a b)) := by
  intro k hk
  rw [Equiv.trans_apply] at hk
  simp only [Equiv.trans_apply]
  by_cases ka : k = a
  · subst ka
    rw [ha, Equiv.swap_apply_left, hb, Equiv.swap_apply_right]
    exact ⟨rfl, Or.inl hab, hs⟩
  by_cases kb : k = b
  · subst kb
    rw [hb, Equiv.swap_apply_right, ha, Equiv.swap_apply_left]
    exact ⟨rfl, Or.inr hab, by rw [add_comm]; exact hs⟩
  have h1 : σ k ≠ a := fun e => ka (σ.injective (e.trans ha.symm))
  have h2 : σ k ≠ b := fun e => kb (σ.injective (e.trans hb.symm))
  rw [Equiv.swap_apply_of_ne_of_ne h1 h2] at hk ⊢
  obtain ⟨g1, g2, g3⟩ := h.congr hd k hk
  rw [g1, Equiv.swap_apply_of_ne_of_ne ka kb]
  exact ⟨rfl, g2, g3⟩

/-- `A0` is, within the part of the error budget already spent, orthogonally similar to the
tridiagonal matrix, up to the permutation `σ` of the coordinates. -/
structure EigApx (n : Nat) (A0 : Matrix (Fin n) (Fin n) ℝ) (eps : ℝ) (d e : Nat → ℝ)
    (Q : Matrix (Fin n) (Fin n) ℝ) (σ : Equiv.Perm (Fin n)) : Prop where
  orth : Qᵀ * Q = 1
  dist : frob (A0 - Q * (tridiag n d e).submatrix σ σ * Qᵀ) ≤
    ((n - 1 - cnt n e : Nat) : ℝ) * (2 * eps * frob A0)
  norm : frob (tridiag n d e) ≤ frob A0
  swaps : Swaps n eps d σ
  trace : (tridiag n d e).trace = A0.trace

theorem frob_conj {n : Nat} {Q : Matrix (Fin n) (Fin n) ℝ} (hQ : Qᵀ * Q = 1)
    (X : Matrix (Fin n) (Fin n) ℝ) (σ : Equiv.Perm (Fin n)) :
    frob (Q * X.submatrix σ σ * Qᵀ) = frob X := by
  rw [frob_mul_orth (by rw [Matrix.transpose_transpose]; exact hQ), frob_orth_mul hQ,
    frob_submatrix_perm]

/-- Spending one unit of the budget. -/
theorem EigApx.spend {n : Nat} {A0 : Matrix (Fin n) (Fin n) ℝ} {eps : ℝ} {d e d' e' : Nat → ℝ}
    {Q : Matrix (Fin n) (Fin n) ℝ} {σ : Equiv.Perm (Fin n)} (h : EigApx n A0 eps d e Q σ)
    (heps : 0 ≤ eps) (τ : Equiv.Perm (Fin n)) (hc : cnt n e' + 1 ≤ cnt n e)
    (hd : frob (tridiag n d e - (tridiag n d' e').submatrix τ τ) ≤ 2 * eps * frob A0)
    (hn : frob (tridiag n d' e') ≤ frob A0) (hsw : Swaps n eps d' (σ.trans τ))
    (htr : (tridiag n d' e').trace = (tridiag n d e).trace) :
    EigApx n A0 eps d' e' Q (σ.trans τ) := by
  refine ⟨h.orth, ?_, hn, hsw, htr.trans h.trace⟩
  have h1 := frob_sub_le A0 (Q * (tridiag n d e).submatrix σ σ * Qᵀ)
    (Q * (tridiag n d' e').submatrix (σ.trans τ) (σ.trans τ) * Qᵀ)
  have h2 : Q * (tridiag n d e).submatrix σ σ * Qᵀ -
      Q * (tridiag n d' e').submatrix (σ.trans τ) (σ.trans τ) * Qᵀ =
      Q * (tridiag n d e - (tridiag n d' e').submatrix τ τ).submatrix σ σ * Qᵀ := by
    rw [Matrix.submatrix_sub, Pi.sub_apply, Pi.sub_apply, Matrix.mul_sub, Matrix.sub_mul]
    rfl
  rw [h2, frob_conj h.orth] at h1
  refine h1.trans ((add_le_add h.dist hd).trans ?_)
  have h3 := cnt_le n e
  have h4 : (n - 1 - cnt n e : Nat) + 1 ≤ n - 1 - cnt n e' := by omega
  have h5 : ((n - 1 - cnt n e : Nat) : ℝ) + 1 ≤ ((n - 1 - cnt n e' : Nat) : ℝ) := by
    exact_mod_cast h4
  have h6 : 0 ≤ 2 * eps * frob A0 := mul_nonneg (by linarith) (frob_nonneg _)
  nlinarith

/-- Setting a small off-diagonal entry to zero. -/
theorem EigApx.drop {n m : Nat} {A0 : Matrix (Fin n) (Fin n) ℝ} {eps : ℝ} {d e : Nat → ℝ}
    {Q : Matrix (Fin n) (Fin n) ℝ} {σ : Equiv.Perm (Fin n)} (h : EigApx n A0 eps d e Q σ)
    (heps : 0 ≤ eps) (hm : m < n - 1) (hs : |e m| ≤ eps * (|d (m + 1)| + |d m|)) :
    EigApx n A0 eps d (zeroAt e m) Q σ := by
  by_cases he : e m = 0
  · have : zeroAt e m = e := by
      funext k; unfold zeroAt; split_ifs with hk
      · rw [hk, he]
      · rfl
    rw [this]; exact h
  · let a : Fin n := ⟨m, by omega⟩
    let b : Fin n := ⟨m + 1, by omega⟩
    have hab : a ≠ b := fun h => by have := Fin.mk.inj_iff.1 h; omega
    have hmono : frob (tridiag n d (zeroAt e m)) ≤ frob (tridiag n d e) := by
      apply frob_mono
      intro i j
      simp only [tridiag, Matrix.of_apply, zeroAt]
      split_ifs <;> simp
    refine h.spend heps (Equiv.refl _) (cnt_zeroAt hm he).le ?_ (hmono.trans h.norm)
      h.swaps (by simp [Matrix.trace, tridiag])
    apply frob_le_of_sq (mul_nonneg (by linarith) (frob_nonneg _))
    rw [sum_sq_block _ a b hab]
    · have e1 : (tridiag n d e - (tridiag n d (zeroAt e m)).submatrix
          (Equiv.refl (Fin n)) (Equiv.refl (Fin n))) a a = 0 := by
        simp [tridiag]
      have e2 : (tridiag n d e - (tridiag n d (zeroAt e m)).submatrix
          (Equiv.refl (Fin n)) (Equiv.refl (Fin n))) b b = 0 := by
        simp [tridiag]
      have e3 : (tridiag n d e - (tridiag n d (zeroAt e m)).submatrix
          (Equiv.refl (Fin n)) (Equiv.refl (Fin n))) a b = e m := by
        simp [tridiag, zeroAt, a, b]
        rw [if_neg (by omega), if_neg (by omega), sub_zero]
      have e4 : (tridiag n d e - (tridiag n d (zeroAt e m)).submatrix
          (Equiv.refl (Fin n)) (Equiv.refl (Fin n))) b a = e m := by
        simp [tridiag, zeroAt, a, b]
      rw [e1, e2, e3, e4]
      have h1 := diag_sq_le_frob (tridiag n d e) a b hab
      have h2 : tridiag n d e a a = d m := by simp [tridiag, a]
      have h3 : tridiag n d e b b = d (m + 1) := by simp [tridiag, b]
      rw [h2, h3] at h1
      have h4 : frob (tridiag n d e) ^ 2 ≤ frob A0 ^ 2 :=
        pow_le_pow_left₀ (frob_nonneg _) h.norm 2
      have h5 : e m ^ 2 ≤ (eps * (|d (m + 1)| + |d m|)) ^ 2 := by
        rw [← sq_abs (e m)]
        exact pow_le_pow_left₀ (abs_nonneg _) hs 2
      have h6 : (|d (m + 1)| + |d m|) ^ 2 ≤ 2 * (d m ^ 2 + d (m + 1) ^ 2) := by
        nlinarith [sq_nonneg (|d (m + 1)| - |d m|), sq_abs (d m), sq_abs (d (m + 1))]
      have h7 : eps ^ 2 * (|d (m + 1)| + |d m|) ^ 2 ≤ eps ^ 2 * (2 * frob A0 ^ 2) :=
        mul_le_mul_of_nonneg_left (by linarith) (sq_nonneg _)
      nlinarith
    · intro i j hij
      simp only [tridiag, Matrix.sub_apply, Matrix.submatrix_apply, Equiv.refl_apply,
        Matrix.of_apply, zeroAt]
      have h1 : (i : Nat) ≠ m ∧ (i : Nat) ≠ m + 1 ∨ (j : Nat) ≠ m ∧ (j : Nat) ≠ m + 1 := by
        rcases hij with ⟨h1, h2⟩ | ⟨h1, h2⟩
        · exact Or.inl ⟨fun h => h1 (Fin.ext h), fun h => h2 (Fin.ext h)⟩
        · exact Or.inr ⟨fun h => h1 (Fin.ext h), fun h => h2 (Fin.ext h)⟩
      split_ifs <;> first | omega | simp

/-- Orthogonal similarity. -/
theorem EigApx.conj {n : Nat} {A0 : Matrix (Fin n) (Fin n) ℝ} {eps : ℝ} {d e d' e' : Nat → ℝ}
    {Q W : Matrix (Fin n) (Fin n) ℝ} {σ : Equiv.Perm (Fin n)} (h : EigApx n A0 eps d e Q σ)
    (heps : 0 ≤ eps) (hW : Wᵀ * W = 1) (hσ : W.submatrix σ σ = W)
    (hT : W * tridiag n d e * Wᵀ = tridiag n d' e') (hc : cnt n e' ≤ cnt n e)
    (hd : ∀ k : Fin n, σ k ≠ k → d' k = d k) :
    EigApx n A0 eps d' e' (Q * Wᵀ) σ := by
  have hW' : W * Wᵀ = 1 := mul_eq_one_comm.1 hW
  refine ⟨?_, ?_, ?_, h.swaps.congr hd, ?_⟩
  · rw [Matrix.transpose_mul, Matrix.transpose_transpose, Matrix.mul_assoc, ← Matrix.mul_assoc Qᵀ,
      h.orth, Matrix.one_mul, hW']
  · have e1 : (tridiag n d' e').submatrix σ σ = W * (tridiag n d e).submatrix σ σ * Wᵀ := by
      rw [← hT, ← Matrix.submatrix_mul_equiv _ _ σ σ σ, ← Matrix.submatrix_mul_equiv _ _ σ σ σ, hσ,
        ← Matrix.transpose_submatrix, hσ]
    have e2 : Q * Wᵀ * (W * (tridiag n d e).submatrix σ σ * Wᵀ) * (Q * Wᵀ)ᵀ =
        Q * (tridiag n d e).submatrix σ σ * Qᵀ := by
      rw [Matrix.transpose_mul, Matrix.transpose_transpose]
      calc Q * Wᵀ * (W * (tridiag n d e).submatrix σ σ * Wᵀ) * (W * Qᵀ)
          = Q * (Wᵀ * W) * (tridiag n d e).submatrix σ σ * (Wᵀ * W) * Qᵀ := by
            simp only [Matrix.mul_assoc]
        _ = _ := by rw [hW, Matrix.mul_one, Matrix.mul_one]
    rw [e1, e2]
    refine h.dist.trans (mul_le_mul_of_nonneg_right ?_ (mul_nonneg (by linarith) (frob_nonneg _)))
    exact_mod_cast (by omega : n - 1 - cnt n e ≤ n - 1 - cnt n e')
  · rw [← hT, frob_mul_orth (by rw [Matrix.transpose_transpose]; exact hW), frob_orth_mul hW]
    exact h.norm
  · rw [← hT, Matrix.trace_mul_comm, ← Matrix.mul_assoc, hW, Matrix.one_mul, h.trace]

theorem rotM_submatrix {n i j : Nat} {c s : ℝ} (σ : Equiv.Perm (Fin n))
    (hi : ∀ k : Fin n, (k : Nat) = i → σ k = k) (hj : ∀ k : Fin n, (k : Nat) = j → σ k = k) :
    (rotM n i j c s).submatrix σ σ = rotM n i j c s := by
  have key : ∀ m, (∀ k : Fin n, (k : Nat) = m → σ k = k) → ∀ r : Fin n,
      ((σ r : Fin n) : Nat) = m ↔ (r : Nat) = m := by
    intro m hm r
    constructor
    · intro h
      have := hm (σ r) h
      rw [← σ.injective this]; exact h
    · intro h; rw [hm r h]; exact h
  ext r k
  simp only [rotM, Matrix.submatrix_apply, Matrix.of_apply, key i hi, key j hj,
    EmbeddingLike.apply_eq_iff_eq]

/-- The off-diagonal entries still in play. -/
def eff (off : Arr1 ℝ) (k : Nat) : Nat → ℝ := fun m => if m < k then off.get m else 0

theorem eff_succ (off : Arr1 ℝ) (k : Nat) : eff off k = zeroAt (eff off (k + 1)) k := by
  funext m
  unfold zeroAt eff
  split_ifs <;> first | rfl | omega

theorem bigOff_real {diag off : Arr1 ℝ} {eps : ℝ} {m : Nat} : bigOff diag off eps m = true ↔
    eps * (|diag.get (m + 1)| + |diag.get m|) < |off.get m| := by
  simp [bigOff]

theorem not_bigOff_real {diag off : Arr1 ℝ} {eps : ℝ} {m : Nat} : bigOff diag off eps m = false ↔
    |off.get m| ≤ eps * (|diag.get (m + 1)| + |diag.get m|) := by
  simp [bigOff]

theorem smallOff_real {diag off : Arr1 ℝ} {eps : ℝ} {m : Nat} (heps : 0 ≤ eps) :
    smallOff diag off eps m = true ↔
      |off.get m| ≤ eps * (|diag.get (m + 1)| + |diag.get m|) := by
  simp only [smallOff, real_isZero, real_le, real_abs, Bool.or_eq_true, decide_eq_true_eq]
  constructor
  · rintro (h | h)
    · rw [h, abs_zero]; positivity
    · exact h
  · exact Or.inr

/-- `delimit_subproblem` stays within the budget. -/
theorem EigApx.delim {n k : Nat} {A0 : Matrix (Fin n) (Fin n) ℝ} {eps : ℝ} {diag off off' : Arr1 ℝ}
    {Q : Matrix (Fin n) (Fin n) ℝ} {σ : Equiv.Perm (Fin n)} {s e : Nat}
    (h : EigApx n A0 eps diag.get (eff off k) Q σ) (heps : 0 ≤ eps) (hk : k ≤ n - 1)
    (ds : DelimSpec diag off eps k off' s e) : EigApx n A0 eps diag.get (eff off' e) Q σ := by
  have h1 : ∀ j, e ≤ j → j ≤ k → EigApx n A0 eps diag.get (eff off j) Q σ := by
    intro j hj hjk
    induction hjk using Nat.decreasingInduction with
    | self => exact h
    | of_succ j hj' ih =>
      rw [eff_succ]
      refine (ih (by omega)).drop heps (by omega) ?_
      rw [eff, if_pos (by omega)]
      exact not_bigOff_real.1 (ds.dropped j hj (by omega))
  have h2 := h1 e le_rfl ds.le
  by_cases hs : s = 0
  · have : off' = off := by rw [ds.off_eq, if_pos hs]
    rw [this]; exact h2
  · have hlt : s < e := by
      by_cases he : e = 0
      · exact absurd (ds.zero he) hs
      · exact ds.lt he
    have hle := ds.le
    have e1 : eff off' e = zeroAt (eff off e) (s - 1) := by
      funext m
      unfold zeroAt eff
      rw [ds.get]
      split_ifs <;> first | rfl | omega
    rw [e1]
    refine h2.drop heps (by omega) ?_
    rw [eff, if_pos (by omega)]
    exact (smallOff_real heps).1 (ds.small hs)

/-! ## The sweep -/

/-- Effect of the sweep so far, relative to its beginning. -/
structure SweepInv (n start e : Nat) (T0 Q0 : Matrix (Fin n) (Fin n) ℝ) (off0 diag0 : Arr1 ℝ)
    (σ : Equiv.Perm (Fin n)) (i : Nat) (yb : ℝ) (st : SweepState ℝ) : Prop where
  ex : ∃ (W : Matrix (Fin n) (Fin n) ℝ) (Q : Arr2 ℝ), st.q = some Q ∧ HasShape Q n n ∧
    toMat n n Q = Q0 * Wᵀ ∧ Wᵀ * W = 1 ∧ W.submatrix σ σ = W ∧
    W * T0 * Wᵀ = triB n st.diag.get (eff st.off e) i yb
  frame : ∀ k, k < start ∨ e ≤ k → st.off.get k = off0.get k
  frameD : ∀ k, e < k → st.diag.get k = diag0.get k

theorem sweep_real {n start e : Nat} {T0 Q0 : Matrix (Fin n) (Fin n) ℝ}
    {σ : Equiv.Perm (Fin n)} {s : SweepState ℝ} {Q : Arr2 ℝ} (hse : start < e) (hen : e < n)
    (hs : SweepShape n s) (hq : s.q = some Q) (hQ : toMat n n Q = Q0)
    (hT : T0 = tridiag n s.diag.get (eff s.off e)) (h0 : start ≠ 0 → s.off.get (start - 1) = 0)
    (hσ : ∀ k : Fin n, (k : Nat) ≤ e → σ k = k) :
    Succeeds (loopBrk (List.range' start (e - start)) s (sweepStep start e))
      (fun st => SweepShape n st ∧ SweepInv n start e T0 Q0 s.off s.diag σ e 0 st) := by
  refine wp_sweep hen hse.le hs (fun i st =>
    SweepInv n start e T0 Q0 s.off s.diag σ i (if start < i ∧ i < e then st.y else 0) st ∧
    (start < i → i < e → st.x = st.off.get (i - 1))) _ ⟨⟨⟨1, Q, hq, hs.q Q hq, ?_, ?_, ?_, ?_⟩, ?_, ?_⟩, ?_⟩
    ?_ ?_ ?_
  · rw [Matrix.transpose_one, Matrix.mul_one, hQ]
  · simp
  · rw [Matrix.submatrix_one_equiv]
  · rw [if_neg (by omega), triB_zero, hT]; simp
  · intros; rfl
  · intros; rfl
  · intro h; omega
  · rintro i st rot norm h1 h2 hst ⟨⟨⟨W, Q, e1, e2, e3, e4, e5, e6⟩, hf, hfd⟩, hx⟩ hc
    obtain ⟨-, c1, c2, c3, -, -⟩ := cancelY_real hc
    have hR := rotM_orth (n := n) (i := i) (j := i + 1) (by omega) (by omega) (by omega) c1
    refine ⟨⟨⟨rotM n i (i + 1) rot.c rot.s * W, rotCols rot.inverse i (i + 1) Q, ?_, e2, ?_, ?_, ?_,
      ?_⟩, ?_, ?_⟩, ?_⟩
    · simp only [sweepNext, e1, Option.map_some]
    · rw [toMat_rotCols _ _ e2 (by omega) (by omega) (by omega), e3, Matrix.transpose_mul,
        rotM_transpose _ _ _ (by omega), Matrix.mul_assoc]
      rfl
    · rw [Matrix.transpose_mul, Matrix.mul_assoc, ← Matrix.mul_assoc _ _ W, hR, Matrix.one_mul, e4]
    · rw [← Matrix.submatrix_mul_equiv _ _ σ σ σ, e5, rotM_submatrix]
      · intro k hk; exact hσ k (by omega)
      · intro k hk; exact hσ k (by omega)
    · have : rotM n i (i + 1) rot.c rot.s * W * T0 * (rotM n i (i + 1) rot.c rot.s * W)ᵀ =
          rotM n i (i + 1) rot.c rot.s * (W * T0 * Wᵀ) * (rotM n i (i + 1) rot.c rot.s)ᵀ := by
        rw [Matrix.transpose_mul]; simp only [Matrix.mul_assoc]
      rw [this, e6]
      have hoffi : (if start < i then st.off.upd (i - 1) norm else st.off).get i =
          st.off.get i := by
        split_ifs
        · rw [Arr1.upd_get, if_neg (by omega)]
        · rfl
      apply sweep_matrix (by omega)
      · intro k k1 k2
        simp only [sweepNext, Arr1.upd_get, if_neg k1, if_neg k2]
      · simp only [sweepNext, Arr1.upd_get, eff, hoffi]
        split_ifs <;> first | omega | (simp only [real_ofRat]; push_cast; ring)
      · simp only [sweepNext, Arr1.upd_get, eff, hoffi]
        split_ifs <;> first | omega | (simp only [real_ofRat]; push_cast; ring)
      · intro k k1 k2 k3
        simp only [sweepNext, eff]
        split_ifs <;> simp only [Arr1.upd_get] <;> split_ifs <;> first | rfl | omega
      · intro k k1
        simp only [eff]
        rw [if_pos (by omega), if_pos (by omega)]
        by_cases hsi : start < i
        · rw [if_pos ⟨hsi, h2⟩]
          have hxk := hx hsi h2
          rw [show i - 1 = k by omega] at hxk
          rw [← hxk, c2]
          simp only [sweepNext, if_pos hsi]
          split_ifs <;> simp only [Arr1.upd_get] <;> split_ifs <;> first | rfl | omega
        · rw [if_neg (by omega)]
          have hz : st.off.get k = 0 := by
            rw [hf k (by omega), show k = start - 1 by omega]; exact h0 (by omega)
          rw [hz]
          simp only [sweepNext, if_neg hsi]
          split_ifs <;> simp only [Arr1.upd_get] <;> split_ifs <;> first | omega | (rw [hz]; ring)
      · intro k k1
        simp only [eff]
        rw [if_pos (by omega)]
        by_cases hsi : start < i
        · rw [if_pos ⟨hsi, h2⟩]
          have hxk := hx hsi h2
          rw [show i - 1 = k by omega] at hxk
          rw [← hxk, c3]
        · rw [if_neg (by omega)]
          have hz : st.off.get k = 0 := by
            rw [hf k (by omega), show k = start - 1 by omega]; exact h0 (by omega)
          rw [hz]; ring
      · simp only [sweepNext, eff]
        split_ifs <;> simp only [Arr1.upd_get] <;> split_ifs <;> first | rfl | omega
      · simp only [sweepNext, eff]
        split_ifs <;> (try simp only [Arr1.upd_get]) <;> (try split_ifs) <;>
          first | rfl | omega | (simp only [zero_mul])
      · simp only [sweepNext, eff]
        split_ifs <;> (try simp only [Arr1.upd_get]) <;> (try split_ifs) <;>
          first | rfl | omega | (simp only [mul_zero])
    · intro k hk
      rw [← hf k hk]
      simp only [sweepNext]
      split_ifs <;> simp only [Arr1.upd_get] <;> split_ifs <;> first | rfl | omega
    · intro k hk
      rw [← hfd k hk]
      simp only [sweepNext, Arr1.upd_get]
      split_ifs <;> first | rfl | omega
    · intro _ h4
      have hin : i ≠ e - 1 := by omega
      simp only [sweepNext, if_pos hin, Nat.add_sub_cancel, Arr1.upd_get]
      rw [if_neg (by omega : ¬ i = i + 1)]
  · rintro i st h1 h2 hst ⟨⟨⟨W, Q, e1, e2, e3, e4, e5, e6⟩, hf, hfd⟩, hx⟩ hc
    have hy := cancelY_real_none hc
    refine ⟨⟨W, Q, e1, e2, e3, e4, e5, ?_⟩, hf, hfd⟩
    rw [e6, hy, ite_self, triB_zero, triB_zero]
  · rintro st hst ⟨⟨⟨W, Q, e1, e2, e3, e4, e5, e6⟩, hf, hfd⟩, hx⟩
    refine ⟨⟨W, Q, e1, e2, e3, e4, e5, ?_⟩, hf, hfd⟩
    rw [e6, if_neg (by omega)]

/-! ## The `2 × 2` block -/

theorem compute2x2_real (a o b : ℝ) : ∃ l0 l1, compute2x2Eigvals a o o b = some (l0, l1) ∧
    l0 + l1 = a + b ∧ (l0 - a) * (l0 - b) = o * o ∧ b ≤ l0 ∧ a ≤ l0 := by
  have hd : 0 ≤ o * o + (a - b) * (1 / 2) * ((a - b) * (1 / 2)) := by
    nlinarith [mul_self_nonneg o, mul_self_nonneg ((a - b) * (1 / 2))]
  refine ⟨(a + b) * (1 / 2) + Real.sqrt (o * o + (a - b) * (1 / 2) * ((a - b) * (1 / 2))),
    (a + b) * (1 / 2) - Real.sqrt (o * o + (a - b) * (1 / 2) * ((a - b) * (1 / 2))), ?_, by ring, ?_,
    ?_, ?_⟩
  · simp only [compute2x2Eigvals, real_le, real_ofRat, real_sqrt, decide_eq_true_eq]
    push_cast
    rw [if_pos hd]
  · have := Real.mul_self_sqrt hd
    linear_combination this
  · have : |(a - b) * (1 / 2)| ≤
        Real.sqrt (o * o + (a - b) * (1 / 2) * ((a - b) * (1 / 2))) := by
      apply Real.abs_le_sqrt
      nlinarith [mul_self_nonneg o]
    have := neg_abs_le ((a - b) * (1 / 2))
    linarith
  · have : |(a - b) * (1 / 2)| ≤
        Real.sqrt (o * o + (a - b) * (1 / 2) * ((a - b) * (1 / 2))) := by
      apply Real.abs_le_sqrt
      nlinarith [mul_self_nonneg o]
    have := le_abs_self ((a - b) * (1 / 2))
    linarith

theorem safe2x2_real (eps : ℝ) : Safe2x2 eps := by
  intro a o b _ h
  obtain ⟨l0, l1, e, -⟩ := compute2x2_real a o b
  rw [e] at h
  exact absurd h (by simp)

/-- The invariant of the main loop. -/
structure EigReal (n : Nat) (A0 : Matrix (Fin n) (Fin n) ℝ) (eps : ℝ) (st : EigState ℝ) : Prop where
  ex : ∃ (Q : Arr2 ℝ) (σ : Equiv.Perm (Fin n)), st.q = some Q ∧ HasShape Q n n ∧
    EigApx n A0 eps st.diag.get (eff st.off st.end) (toMat n n Q) σ ∧
    (st.end ≠ st.start → ∀ k : Fin n, (k : Nat) ≤ st.end → σ k = k)
  start0 : st.start ≠ 0 → st.off.get (st.start - 1) = 0
  block : ∀ m, st.start ≤ m → m < st.end → st.off.get m ≠ 0
  end0 : st.end = st.start → st.end = 0

/-- State of the main loop before `delimit_subproblem`. -/
def EigMid (n : Nat) (A0 : Matrix (Fin n) (Fin n) ℝ) (eps : ℝ) (st : EigState ℝ) : Prop :=
  st.end < n ∧ ∃ (Q : Arr2 ℝ) (σ : Equiv.Perm (Fin n)), st.q = some Q ∧ HasShape Q n n ∧
    EigApx n A0 eps st.diag.get (eff st.off st.end) (toMat n n Q) σ ∧
    (∀ k : Fin n, (k : Nat) < st.end → σ k = k) ∧
    ((∀ k : Fin n, (k : Nat) ≤ st.end → σ k = k) ∨ (st.end ≠ 0 → st.off.get (st.end - 1) = 0))

theorem DelimSpec.real {n : Nat} {A0 : Matrix (Fin n) (Fin n) ℝ} {eps : ℝ} (heps : 0 ≤ eps)
    {mid st : EigState ℝ} (hm : EigMid n A0 eps mid) (hd : st.diag = mid.diag) (hq : st.q = mid.q)
    (ds : DelimSpec mid.diag mid.off eps mid.end st.off st.start st.end) : EigReal n A0 eps st := by
  obtain ⟨hlt, Q, σ, e1, e2, e3, e4, e5⟩ := hm
  refine ⟨⟨Q, σ, hq.trans e1, e2, ?_, ?_⟩, ?_, ?_, ?_⟩
  · rw [hd]; exact e3.delim heps (by omega) ds
  · intro hne k hk
    have hle := ds.le
    rcases e5 with e5 | e5
    · exact e5 k (by omega)
    · have h0 : st.end ≠ 0 := fun h => hne (by rw [h, ds.zero h])
      have hb := bigOff_real.1 (ds.big h0)
      have hne' : st.end ≠ mid.end := by
        intro he
        rw [he, e5 (by omega), abs_zero] at hb
        have : 0 ≤ eps * (|mid.diag.get (mid.end - 1 + 1)| + |mid.diag.get (mid.end - 1)|) := by
          positivity
        linarith
      exact e4 k (by omega)
  · intro hs
    rw [ds.get, if_pos (by omega)]
  · intro m h1 h2 h3
    rw [ds.get, if_neg (by omega)] at h3
    by_cases hm : m = st.end - 1
    · have hb := bigOff_real.1 (ds.big (by omega))
      rw [← hm, h3, abs_zero] at hb
      have : 0 ≤ eps * (|mid.diag.get (m + 1)| + |mid.diag.get m|) := by positivity
      linarith
    · have := ds.block m h1 (by omega)
      simp [smallOff, h3] at this
  · intro he
    by_contra h0
    have := ds.lt h0
    omega

/-- One sweep. -/
theorem EigReal.sweep {n : Nat} {A0 : Matrix (Fin n) (Fin n) ℝ} {eps : ℝ} (heps : 0 ≤ eps)
    {st : EigState ℝ} (h : EigReal n A0 eps st) (hsh : EigShape n eps st)
    (hs : st.start + 1 < st.end) (x y : ℝ) (r : SweepState ℝ) (e : Nat)
    (hr : e = st.end - 1 ∧ |r.off.get (st.end - 1)| ≤
        eps * (|r.diag.get (st.end - 1)| + |r.diag.get st.end|) ∨ e = st.end)
    (hl : loopBrk (List.range' st.start (st.end - st.start))
        (⟨st.diag, st.off, st.q, x, y⟩ : SweepState ℝ) (sweepStep st.start st.end) = .ok r) :
    EigMid n A0 eps ⟨r.diag, r.off, r.q, st.start, e⟩ := by
  obtain ⟨⟨Q, σ, e1, e2, e3, e4⟩, h0, hb, -⟩ := h
  have hlt := hsh.lt
  have hσ := e4 (by omega)
  have hw := sweep_real (n := n) (start := st.start) (e := st.end)
    (T0 := tridiag n st.diag.get (eff st.off st.end)) (Q0 := toMat n n Q) (σ := σ)
    (s := ⟨st.diag, st.off, st.q, x, y⟩) (Q := Q) (by omega) hlt
    ⟨hsh.diag, hsh.off, hsh.q⟩ e1 rfl rfl h0 hσ
  rw [hl] at hw
  obtain ⟨-, ⟨⟨W, Q', f1, f2, f3, f4, f5, f6⟩, hf, hfd⟩⟩ := hw
  rw [triB_zero] at f6
  have hap : EigApx n A0 eps r.diag.get (eff r.off st.end) (toMat n n Q') σ := by
    rw [f3]
    refine e3.conj heps f4 f5 f6 (cnt_mono ?_) fun k hk =>
      hfd k (by by_contra hke; exact hk (hσ k (by omega)))
    intro k _ hk
    unfold eff at hk ⊢
    by_cases hke : k < st.end
    · rw [if_pos hke] at hk ⊢
      by_cases hks : k < st.start
      · rw [hf k (Or.inl hks)] at hk; exact hk
      · exact hb k (by omega) hke
    · rw [if_neg hke] at hk; exact absurd rfl hk
  rcases hr with ⟨rfl, hle⟩ | rfl
  · refine ⟨by simp only; omega, Q', σ, f1, f2, ?_, fun k hk => hσ k (by simp only at hk; omega),
      Or.inl fun k hk => hσ k (by simp only at hk; omega)⟩
    simp only
    rw [eff_succ, show st.end - 1 + 1 = st.end by omega]
    refine hap.drop heps (by omega) ?_
    rw [eff, if_pos (by omega), show st.end - 1 + 1 = st.end by omega, add_comm |r.diag.get st.end|]
    exact hle
  · exact ⟨hlt, Q', σ, f1, f2, hap, fun k hk => hσ k hk.le, Or.inl hσ⟩

/-- The rotation that diagonalizes a `2 × 2` block. -/
theorem two_conj {n s : Nat} (hsn : s + 1 < n) {diag off : Arr1 ℝ} {d0 d1 o l0 l1 r : ℝ}
    (hd0 : diag.get s = d0) (hd1 : diag.get (s + 1) = d1) (hoo : off.get s = o)
    (h0 : s ≠ 0 → off.get (s - 1) = 0) (hr0 : 0 < r)
    (hrr : r * r = (l0 - d1) * (l0 - d1) + o * o) (c1 : l0 + l1 = d0 + d1)
    (c2 : (l0 - d0) * (l0 - d1) = o * o) :
    (rotM n s (s + 1) ((l0 - d1) / r) (-(o / r)))ᵀ * rotM n s (s + 1) ((l0 - d1) / r) (-(o / r)) = 1 ∧
    rotM n s (s + 1) ((l0 - d1) / r) (-(o / r)) * tridiag n diag.get (eff off (s + 1)) *
      (rotM n s (s + 1) ((l0 - d1) / r) (-(o / r)))ᵀ =
      tridiag n ((diag.upd s l0).upd (s + 1) l1).get (eff off s) := by
  have hcs : (l0 - d1) / r * ((l0 - d1) / r) + -(o / r) * -(o / r) = 1 := by
    have := hr0.ne'
    field_simp
    linear_combination -hrr
  have hes : eff off (s + 1) s = o := by rw [eff, if_pos (by omega), hoo]
  have hes1 : eff off (s + 1) (s + 1) = 0 := by rw [eff, if_neg (by omega)]
  have hW := rotM_orth (n := n) (i := s) (j := s + 1) (by omega) (by omega) (by omega) hcs
  have hT : rotM n s (s + 1) ((l0 - d1) / r) (-(o / r)) *
      tridiag n diag.get (eff off (s + 1)) *
      (rotM n s (s + 1) ((l0 - d1) / r) (-(o / r)))ᵀ =
      tridiag n ((diag.upd s l0).upd (s + 1) l1).get (eff off s) := by
    rw [← triB_zero n diag.get _ s, ← triB_zero n _ (eff off s) (s + 1)]
    have hne := hr0.ne'
    have hl1 : l1 = d0 + d1 - l0 := by linear_combination c1
    apply sweep_matrix (by omega)
    · intro k k1 k2
      simp only [Arr1.upd_get, if_neg k1, if_neg k2]
    · simp only [Arr1.upd_get, if_neg (show ¬ s = s + 1 by omega), if_true, hes, hd0, hd1]
      field_simp
      rw [sq, hrr]
      linear_combination (l0 - d1) * c2
    · simp only [Arr1.upd_get, if_true, hes, hd0, hd1]
      rw [hl1]
      field_simp
      rw [sq, hrr]
      linear_combination (-(l0 - d1)) * c2
    · intro k k1 k2 k3
      rw [eff_succ off s, zeroAt, if_neg k1]
    · intro k k1
      have : off.get k = 0 := by
        have := h0 (by omega); rwa [show s - 1 = k by omega] at this
      simp only [eff, this, ite_self]; ring
    · intro k k1
      have : off.get k = 0 := by
        have := h0 (by omega); rwa [show s - 1 = k by omega] at this
      simp only [eff, this, ite_self]; ring
    · rw [hes, hd0, hd1]
      simp only [eff, lt_irrefl, if_false]
      field_simp
      linear_combination (-o) * c2
    · rw [hes1, eff, if_neg (by omega)]; ring
    · rw [hes1]; ring
  exact ⟨hW, hT⟩

/-- The two values of a block whose rotation is skipped are small. -/
theorem skip_small {eps d0 d1 o l0 l1 r : ℝ} (hr : r = Real.sqrt ((l0 - d1) * (l0 - d1) + o * o))
    (hr0 : 0 < r) (hsmall : r ≤ eps) (c1 : l0 + l1 = d0 + d1)
    (hb' : eps * (|d1| + |d0|) < |o|) : |l0| + |l1| < 1 + 2 * eps := by
  have k1 : |l0 - d1| ≤ eps := by
    refine le_trans ?_ hsmall
    rw [hr]
    apply Real.le_sqrt_of_sq_le
    rw [sq_abs]
    nlinarith [mul_self_nonneg o]
  have k2 : |o| ≤ eps := by
    refine le_trans ?_ hsmall
    rw [hr]
    apply Real.le_sqrt_of_sq_le
    rw [sq_abs]
    nlinarith [mul_self_nonneg (l0 - d1)]
  have k3 : 0 < eps := hr0.trans_le hsmall
  have k4 : |d1| + |d0| < 1 := by
    by_contra hge
    have := mul_le_mul_of_nonneg_left (not_lt.1 hge) k3.le
    linarith
  have k5 : |l0| ≤ |d1| + eps := by
    have := abs_add_le d1 (l0 - d1)
    rw [add_sub_cancel] at this
    linarith
  have k6 : |l1| ≤ |d0| + eps := by
    have e : l1 = d0 - (l0 - d1) := by linear_combination c1
    have := abs_sub d0 (l0 - d1)
    rw [← e] at this
    linarith
  linarith

/-- One `2 × 2` block. -/
theorem EigReal.two {n : Nat} {A0 : Matrix (Fin n) (Fin n) ℝ} {eps : ℝ} (heps : 0 ≤ eps)
    (hA0 : A0 = 0 ∨ 1 ≤ frob A0)
    {st : EigState ℝ} (h : EigReal n A0 eps st) (hsh : EigShape n eps st)
    (hs : st.start + 1 = st.end) : Succeeds (eig2x2 eps st) (EigMid n A0 eps) := by
  obtain ⟨⟨Q, σ, e1, e2, e3, e4⟩, h0, hb, -⟩ := h
  have hlt := hsh.lt
  have hσ := e4 (by omega)
  obtain ⟨l0, l1, hc, c1, c2, -, -⟩ := compute2x2_real (st.diag.get st.start) (st.off.get st.start)
    (st.diag.get (st.start + 1))
  rw [eig2x2_eq hsh hs, hc]
  simp only
  generalize hs' : st.start = s at *
  have hen : st.end - 1 = s := by omega
  rw [hen]
  rw [← hs] at e3 hσ hlt
  have ho : st.off.get s ≠ 0 := hb s le_rfl (by omega)
  generalize hd0 : st.diag.get s = d0 at *
  generalize hd1 : st.diag.get (s + 1) = d1 at *
  generalize hoo : st.off.get s = o at *
  -- the rotation that diagonalizes the block
  have hrp : 0 < (l0 - d1) * (l0 - d1) + o * o := by
    have := mul_self_pos.2 ho
    nlinarith [mul_self_nonneg (l0 - d1)]
  obtain ⟨r, hr⟩ : ∃ r, r = Real.sqrt ((l0 - d1) * (l0 - d1) + o * o) := ⟨_, rfl⟩
  have hr0 : 0 < r := by rw [hr]; exact Real.sqrt_pos.2 hrp
  have hrr : r * r = (l0 - d1) * (l0 - d1) + o * o := by rw [hr]; exact Real.mul_self_sqrt hrp.le
  have hes : eff st.off (s + 1) s = o := by rw [eff, if_pos (by omega), hoo]
  obtain ⟨hW, hT⟩ := two_conj (by omega) hd0 hd1 hoo h0 hr0 hrr c1 c2
  have hcnt : cnt n (eff st.off s) + 1 = cnt n (eff st.off (s + 1)) := by
    rw [eff_succ st.off s]
    exact cnt_zeroAt (by omega) (by rw [hes]; exact ho)
  have hfr : ∀ k : Fin n, σ k ≠ k →
      ((st.diag.upd s l0).upd (s + 1) l1).get k = st.diag.get k := by
    intro k hk
    have : s + 1 < k := by by_contra hke; exact hk (hσ k (by omega))
    rw [Arr1.upd_get, if_neg (by omega), Arr1.upd_get, if_neg (by omega)]
  cases hn : GivensRotation.tryNew (l0 - d1) o eps with
  | some p =>
    obtain ⟨rot, nn⟩ := p
    obtain ⟨-, t2, t3, t4, -⟩ := tryNew_real heps hn
    rw [← hr] at t2
    rw [t2] at t3 t4
    refine ⟨by simp only; omega, rotCols rot s (s + 1) Q, σ, by simp only [e1, Option.map_some], e2, ?_,
      fun k hk => hσ k (by simp only at hk; omega), Or.inl fun k hk => hσ k (by simp only at hk; omega)⟩
    rw [toMat_rotCols _ _ e2 (by omega) (by omega) (by omega), t3, t4]
    have := e3.conj heps hW (rotM_submatrix σ (fun k hk => hσ k (by omega))
      (fun k hk => hσ k (by omega))) hT (by omega) hfr
    rwa [rotM_transpose _ _ _ (by omega), neg_neg] at this
  | none =>
    have hsmall := tryNew_real_none hn
    rw [← hr] at hsmall
    let a : Fin n := ⟨s, by omega⟩
    let b : Fin n := ⟨s + 1, by omega⟩
    have hab : a ≠ b := fun h => by have := Fin.mk.inj_iff.1 h; omega
    have hnorm : frob (tridiag n ((st.diag.upd s l0).upd (s + 1) l1).get (eff st.off s)) =
        frob (tridiag n st.diag.get (eff st.off (s + 1))) := by
      rw [← hT, frob_mul_orth (by rw [Matrix.transpose_transpose]; exact hW), frob_orth_mul hW]
    have hA1 : 1 ≤ frob A0 := by
      rcases hA0 with hA0 | hA0
      · exfalso
        have h1 := e3.norm
        rw [hA0, frob_zero] at h1
        have h2 := abs_le_frob (tridiag n st.diag.get (eff st.off (s + 1))) b a
        have h3 : tridiag n st.diag.get (eff st.off (s + 1)) b a = o := by
          simp [tridiag, a, b, hes]
        rw [h3] at h2
        exact ho (abs_nonpos_iff.1 (h2.trans h1))
      · exact hA0
    refine ⟨by simp only; omega, Q, σ.trans (Equiv.swap a b), e1, e2, ?_, ?_, ?_⟩
    · refine e3.spend heps _ hcnt.le ?_ (hnorm.le.trans e3.norm)
        (e3.swaps.swap (hσ a (by simp only [a]; omega)) (hσ b le_rfl) rfl hfr ?_)
        (by rw [← hT, Matrix.trace_mul_comm, ← Matrix.mul_assoc, hW, Matrix.one_mul])
      rotate_left
      · have g0 : ((st.diag.upd s l0).upd (s + 1) l1).get (a : Nat) = l0 := by
          simp [a, Arr1.upd_get]
        have g1 : ((st.diag.upd s l0).upd (s + 1) l1).get (b : Nat) = l1 := by
          simp [b, Arr1.upd_get]
        rw [g0, g1]
        have hb' := bigOff_real.1 (hsh.big (by omega))
        rw [hen, hd0, hd1, hoo] at hb'
        exact skip_small hr hr0 hsmall c1 hb'
      apply frob_le_of_sq (mul_nonneg (by linarith) (frob_nonneg _))
      rw [sum_sq_block _ a b hab]
      · have f1 : (tridiag n st.diag.get (eff st.off (s + 1)) -
            (tridiag n ((st.diag.upd s l0).upd (s + 1) l1).get (eff st.off s)).submatrix
              (Equiv.swap a b) (Equiv.swap a b)) a a = d0 - l1 := by
          simp [tridiag, a, b, hd0, Arr1.upd_get]
        have f2 : (tridiag n st.diag.get (eff st.off (s + 1)) -
            (tridiag n ((st.diag.upd s l0).upd (s + 1) l1).get (eff st.off s)).submatrix
              (Equiv.swap a b) (Equiv.swap a b)) b b = d1 - l0 := by
          simp [tridiag, a, b, hd1, Arr1.upd_get]
        have f3 : (tridiag n st.diag.get (eff st.off (s + 1)) -
            (tridiag n ((st.diag.upd s l0).upd (s + 1) l1).get (eff st.off s)).submatrix
              (Equiv.swap a b) (Equiv.swap a b)) a b = o := by
          have g1 : eff st.off s s = 0 := by rw [eff, if_neg (by omega)]
          simp only [Matrix.sub_apply, Matrix.submatrix_apply, Equiv.swap_apply_left,
            Equiv.swap_apply_right, tridiag, Matrix.of_apply, a, b, hes, g1]
          split_ifs <;> first | omega | simp
        have f4 : (tridiag n st.diag.get (eff st.off (s + 1)) -
            (tridiag n ((st.diag.upd s l0).upd (s + 1) l1).get (eff st.off s)).submatrix
              (Equiv.swap a b) (Equiv.swap a b)) b a = o := by
          have g1 : eff st.off s s = 0 := by rw [eff, if_neg (by omega)]
          simp only [Matrix.sub_apply, Matrix.submatrix_apply, Equiv.swap_apply_left,
            Equiv.swap_apply_right, tridiag, Matrix.of_apply, a, b, hes, g1]
          split_ifs <;> first | omega | simp
        rw [f1, f2, f3, f4]
        have g2 : d0 - l1 = l0 - d1 := by linear_combination -c1
        have g3 : r ^ 2 ≤ eps ^ 2 := pow_le_pow_left₀ hr0.le hsmall 2
        have g4 : (1 : ℝ) ≤ frob A0 ^ 2 := one_le_pow₀ hA1
        have g5 : eps ^ 2 * 1 ≤ eps ^ 2 * frob A0 ^ 2 :=
          mul_le_mul_of_nonneg_left g4 (sq_nonneg _)
        rw [g2]
        nlinarith
      · intro i j hij
        have h1 : ∀ k : Fin n, k ≠ a → k ≠ b → (k : Nat) ≠ s ∧ (k : Nat) ≠ s + 1 :=
          fun k ka kb => ⟨fun h => ka (Fin.ext h), fun h => kb (Fin.ext h)⟩
        have hz : ∀ k, k + 1 = s → st.off.get k = 0 := by
          intro k hk
          have := h0 (by omega); rwa [show s - 1 = k by omega] at this
        have key : ∀ i j : Fin n, i ≠ a → i ≠ b →
            tridiag n st.diag.get (eff st.off (s + 1)) i j =
            tridiag n ((st.diag.upd s l0).upd (s + 1) l1).get (eff st.off s) i
              (Equiv.swap a b j) := by
          intro i j ia ib
          obtain ⟨i1, i2⟩ := h1 i ia ib
          by_cases ja : j = a
          · subst ja
            rw [Equiv.swap_apply_left]
            simp only [tridiag, Matrix.of_apply, a, b, eff]
            split_ifs <;> first | omega | rfl | exact hz _ (by omega)
          · by_cases jb : j = b
            · subst jb
              rw [Equiv.swap_apply_right]
              simp only [tridiag, Matrix.of_apply, a, b, eff]
              split_ifs <;> first | omega | rfl | exact (hz _ (by omega)).symm
            · obtain ⟨j1, j2⟩ := h1 j ja jb
              rw [Equiv.swap_apply_of_ne_of_ne ja jb]
              simp only [tridiag, Matrix.of_apply, eff, Arr1.upd_get]
              split_ifs <;> first | omega | rfl
        have tsym : ∀ (d e : Nat → ℝ) (i j : Fin n), tridiag n d e i j = tridiag n d e j i := by
          intro d e i j
          simp only [tridiag, Matrix.of_apply]
          split_ifs <;> first | rfl | omega | (congr 1)
        rw [Matrix.sub_apply, Matrix.submatrix_apply]
        rcases hij with ⟨ia, ib⟩ | ⟨ja, jb⟩
        · rw [key i j ia ib, Equiv.swap_apply_of_ne_of_ne ia ib, sub_self]
        · rw [tsym, key j i ja jb, tsym, Equiv.swap_apply_of_ne_of_ne ja jb, sub_self]
    · intro k hk
      simp only at hk
      rw [Equiv.trans_apply, hσ k (by omega), Equiv.swap_apply_of_ne_of_ne]
      · intro h; rw [h] at hk; exact absurd hk (lt_irrefl _)
      · intro h; rw [h] at hk; simp only [b] at hk; omega
    · exact Or.inr h0

/-- The main loop keeps the invariant. -/
theorem EigReal.step {n : Nat} {A0 : Matrix (Fin n) (Fin n) ℝ} {eps : ℝ} (heps : 0 ≤ eps)
    (hA0 : A0 = 0 ∨ 1 ≤ frob A0) {st : EigState ℝ} (h : EigReal n A0 eps st)
    (hsh : EigShape n eps st) (hne : st.end ≠ st.start) :
    Succeeds (eigStep eps st) (fun st' => EigShape n eps st' ∧ EigReal n A0 eps st') := by
  refine wp_conseq (wp_eigStep hsh hne (EigMid n A0 eps) (fun hs => h.two heps hA0 hsh hs) ?_) ?_
  · intro r e hs _ hr hl
    refine h.sweep heps hsh hs _ _ r e ?_ hl
    simpa using hr
  · rintro st' ⟨h1, mid, hm, -, -, hd, hq, ds⟩
    exact ⟨h1, DelimSpec.real heps hm hd hq ds⟩

/-- The last step, with the scaling undone. -/
theorem EigApx.unscale {n : Nat} {a : Arr2 ℝ} {eps : ℝ} (ha : HasShape a n n) (hn : 1 ≤ n)
    {d : Arr1 ℝ} {Q : Arr2 ℝ} {σ : Equiv.Perm (Fin n)} {e : Nat → ℝ} (he : ∀ k, e k = 0)
    (h : EigApx n (toMat n n (a.scaleDown a.amax)) eps d.get e (toMat n n Q) σ) :
    frob (toMat n n a - toMat n n Q *
        (Matrix.diagonal fun i => (d.map fun x => x * a.amax).get (σ i)) * (toMat n n Q)ᵀ) ≤
      2 * (n - 1 : Nat) * eps * frob (toMat n n a) := by
  obtain ⟨-, s2, -, -⟩ := scaleDown_real a ha hn hn
  have e1 : (Matrix.diagonal fun i => (d.map fun x => x * a.amax).get (σ i)) =
      a.amax • (tridiag n d.get e).submatrix σ σ := by
    ext i j
    simp only [Matrix.diagonal_apply, Matrix.smul_apply, Matrix.submatrix_apply, tridiag,
      Matrix.of_apply, he, ite_self, smul_eq_mul]
    by_cases hij : i = j
    · subst hij; simp [Arr1.map, mul_comm]
    · rw [if_neg hij, if_neg (fun h => hij (σ.injective (Fin.ext h))), mul_zero]
  have e2 : cnt n e = 0 := by
    unfold cnt
    rw [Finset.card_eq_zero, Finset.filter_eq_empty_iff]
    intro k _; simp [he]
  have h3 := h.dist
  rw [e2, Nat.sub_zero] at h3
  rw [e1, Matrix.mul_smul, Matrix.smul_mul]
  have hnn := amax_nonneg a (by rw [ha.1]; exact hn) (by rw [ha.2]; exact hn)
  calc frob (toMat n n a - a.amax • (toMat n n Q * (tridiag n d.get e).submatrix σ σ *
        (toMat n n Q)ᵀ))
      = a.amax * frob (toMat n n (a.scaleDown a.amax) - toMat n n Q *
          (tridiag n d.get e).submatrix σ σ * (toMat n n Q)ᵀ) := by
        conv_lhs => rw [s2]
        rw [← smul_sub, frob_smul, abs_of_nonneg hnn]
    _ ≤ a.amax * ((n - 1 : Nat) * (2 * eps * frob (toMat n n (a.scaleDown a.amax)))) :=
        mul_le_mul_of_nonneg_left h3 hnn
    _ = 2 * (n - 1 : Nat) * eps * frob (toMat n n a) := by
        conv_rhs => rw [s2]
        rw [frob_smul, abs_of_nonneg hnn]; ring

/-- The sum and the sum of the squares of the values, with the scaling undone. -/
theorem EigApx.sums {n : Nat} {a : Arr2 ℝ} {eps : ℝ} (ha : HasShape a n n) (hn : 1 ≤ n)
    {d : Arr1 ℝ} {Q : Matrix (Fin n) (Fin n) ℝ} {σ : Equiv.Perm (Fin n)} {e : Nat → ℝ} (he : ∀ k, e k = 0)
    (h : EigApx n (toMat n n (a.scaleDown a.amax)) eps d.get e Q σ) :
    ∑ i : Fin n, (d.map fun x => x * a.amax).get i = (toMat n n a).trace ∧
      ∑ i : Fin n, (d.map fun x => x * a.amax).get i ^ 2 ≤ frob (toMat n n a) ^ 2 := by
  obtain ⟨-, s2, -, -⟩ := scaleDown_real a ha hn hn
  have e1 : tridiag n d.get e = Matrix.diagonal fun i : Fin n => d.get i := by
    ext i j
    simp only [Matrix.diagonal_apply, tridiag, Matrix.of_apply, he, ite_self, Fin.ext_iff]
  have h1 := h.trace
  have h2 := pow_le_pow_left₀ (frob_nonneg _) h.norm 2
  rw [e1] at h1 h2
  rw [Matrix.trace_diagonal] at h1
  constructor
  · rw [s2, Matrix.trace_smul, ← h1, smul_eq_mul, Finset.mul_sum]
    exact Finset.sum_congr rfl fun i _ => mul_comm _ _
  · rw [frob_sq] at h2
    have e2 : ∑ i : Fin n, ∑ j : Fin n, (Matrix.diagonal (fun i : Fin n => d.get i) i j) ^ 2 = ∑ i : Fin n, d.get i ^ 2 := by
      refine Finset.sum_congr rfl fun i _ => ?_
      rw [Finset.sum_eq_single i (fun j _ hj => by rw [Matrix.diagonal_apply_ne _ hj.symm]; norm_num)
        (fun hi => absurd (Finset.mem_univ i) hi), Matrix.diagonal_apply_eq]
    rw [e2] at h2
    rw [s2, frob_smul, mul_pow, sq_abs]
    simp only [Arr1.map, mul_pow]
    rw [← Finset.sum_mul, mul_comm]
    exact mul_le_mul_of_nonneg_left h2 (sq_nonneg _)

/-- What `symmetric_eig` returns on a symmetric matrix, with the sums of the values and of their squares. -/
theorem symmetricEig_sums {n : Nat} (fuel : Nat) (a : Arr2 ℝ) {eps : ℝ} (heps : 0 ≤ eps)
    (ha : HasShape a n n) (hn : 1 ≤ n) (hs : (toMat n n a).IsSymm) :
    wp (symmetricEig fuel a true eps) (fun r => ∃ (Q : Arr2 ℝ) (σ : Equiv.Perm (Fin n)),
      r.2 = some Q ∧ HasShape Q n n ∧ (toMat n n Q)ᵀ * toMat n n Q = 1 ∧
      frob (toMat n n a - toMat n n Q *
          (Matrix.diagonal fun i => r.1.get (σ i)) * (toMat n n Q)ᵀ) ≤
        2 * (n - 1 : Nat) * eps * frob (toMat n n a) ∧
      (∀ k, σ k ≠ k → σ (σ k) = k ∧ ((σ k : Nat) = k + 1 ∨ (k : Nat) = σ k + 1) ∧
        |r.1.get k| + |r.1.get (σ k)| ≤ (1 + 2 * eps) * a.amax) ∧
      ∑ i : Fin n, r.1.get i = (toMat n n a).trace ∧
      ∑ i : Fin n, r.1.get i ^ 2 ≤ frob (toMat n n a) ^ 2) (fun e => e = .fuel) := by
  obtain ⟨s1, s2, s3, s4⟩ := scaleDown_real a ha hn hn
  have hsym : (toMat n n (a.scaleDown a.amax)).IsSymm := by
    rw [s4, Matrix.IsSymm, Matrix.transpose_smul, hs.eq]
  have hsq : a.nr = a.nc := by rw [ha.1, ha.2]
  obtain ⟨t, ht, hsh, q, hqs, hev, hgen, h1, h2⟩ := symmetricEig_cases fuel a true eps hsq
    (by rw [ha.1]; exact hn)
  rw [ha.1] at hsh hqs h1 h2
  obtain ⟨t', ht', htri⟩ := symTridiagonal_real (a.scaleDown a.amax) s1 hn hsym
  rw [ht, Except.ok.injEq] at ht'
  subst ht'
  obtain ⟨Q, hQ, sQ, oQ, eQ⟩ := htri.final hn
  obtain ⟨x, rfl⟩ := Option.isSome_iff_exists.1 hev
  have := hgen x rfl
  rw [hQ, Except.ok.injEq] at this
  subst this
  have hdg : ∀ i, t.intoDiagonals.1.get i = t.diagMatrix.get i i := fun i => rfl
  have hap : EigApx n (toMat n n (a.scaleDown a.amax)) eps t.intoDiagonals.1.get
      (eff t.intoDiagonals.2 (n - 1)) (toMat n n Q) (Equiv.refl _) := by
    have e1 : tridiag n t.intoDiagonals.1.get (eff t.intoDiagonals.2 (n - 1)) =
        tridiag n (fun i => t.diagMatrix.get i i) (fun i => |t.offDiagonal.get i|) := by
      ext i j
      simp only [tridiag, Matrix.of_apply, eff]
      have := i.2
      have := j.2
      split_ifs <;> first | omega | rfl
    have e2 : ∀ X : Matrix (Fin n) (Fin n) ℝ,
        X.submatrix (Equiv.refl (Fin n)) (Equiv.refl (Fin n)) = X := fun X => rfl
    refine ⟨oQ, ?_, ?_, Swaps.refl _ _ _, ?_⟩
    · rw [e1, e2, eQ, sub_self, frob_zero]
      have := frob_nonneg (toMat n n (a.scaleDown a.amax))
      positivity
    · rw [e1, ← eQ, frob_mul_orth (by rw [Matrix.transpose_transpose]; exact oQ), frob_orth_mul oQ]
    · rw [e1, ← eQ, Matrix.trace_mul_comm, ← Matrix.mul_assoc, oQ, Matrix.one_mul]
  have hsw : ∀ (d : Arr1 ℝ) (σ : Equiv.Perm (Fin n)), Swaps n eps d.get σ →
      ∀ k, σ k ≠ k → σ (σ k) = k ∧ ((σ k : Nat) = k + 1 ∨ (k : Nat) = σ k + 1) ∧
        |(d.map fun x => x * a.amax).get k| + |(d.map fun x => x * a.amax).get (σ k)| ≤
          (1 + 2 * eps) * a.amax := by
    intro d σ h k hk
    obtain ⟨g1, g2, g3⟩ := h k hk
    have hnn := amax_nonneg a (by rw [ha.1]; exact hn) (by rw [ha.2]; exact hn)
    refine ⟨g1, g2, ?_⟩
    simp only [Arr1.map]
    rw [abs_mul, abs_mul, abs_of_nonneg hnn, ← add_mul]
    exact mul_le_mul_of_nonneg_right g3.le hnn
  by_cases hn1 : n = 1
  · rw [h1 hn1]
    refine ⟨Q, Equiv.refl _, rfl, sQ, oQ, hap.unscale ha hn ?_, fun _ h => absurd rfl h, hap.sums ha hn ?_⟩ <;>
    · intro k
      rw [eff, if_neg (by omega)]
  · obtain ⟨off, s, e, -, ds, hei, heq⟩ := h2 hn1
    rw [heq, wp_bind]
    have h0 : EigReal n (toMat n n (a.scaleDown a.amax)) eps
        ⟨t.intoDiagonals.1, off, some Q, s, e⟩ := by
      refine DelimSpec.real (mid := ⟨t.intoDiagonals.1, t.intoDiagonals.2, some Q, s, n - 1⟩) heps
        ⟨by simp only; omega, Q, Equiv.refl _, rfl, sQ, hap, fun _ _ => rfl,
          Or.inl fun _ _ => rfl⟩ rfl rfl ds
    refine wp_conseq (wp_eigLoop (E := fun e => e = .fuel) fuel hei rfl (EigReal n (toMat n n (a.scaleDown a.amax)) eps) h0
      fun st hst hne h => ?_) ?_
    · exact wp_mono (h.step heps s3 hst hne) (fun _ h => h) (fun _ h => h.elim)
    · rintro st ⟨hst, hreal, hend⟩
      obtain ⟨⟨Q', σ, f1, f2, f3, -⟩, -, -, hz⟩ := hreal
      refine ⟨Q', σ, f1, f2, f3.orth, f3.unscale ha hn ?_, hsw _ _ f3.swaps, f3.sums ha hn ?_⟩ <;>
      · intro k
        rw [eff, if_neg (by rw [hz hend]; omega)]

/-- What `symmetric_eig` returns on a symmetric matrix. -/
theorem symmetricEig_real {n : Nat} (fuel : Nat) (a : Arr2 ℝ) {eps : ℝ} (heps : 0 ≤ eps)
    (ha : HasShape a n n) (hn : 1 ≤ n) (hs : (toMat n n a).IsSymm) :
    wp (symmetricEig fuel a true eps) (fun r => ∃ (Q : Arr2 ℝ) (σ : Equiv.Perm (Fin n)),
      r.2 = some Q ∧ HasShape Q n n ∧ (toMat n n Q)ᵀ * toMat n n Q = 1 ∧
      frob (toMat n n a - toMat n n Q *
          (Matrix.diagonal fun i => r.1.get (σ i)) * (toMat n n Q)ᵀ) ≤
        2 * (n - 1 : Nat) * eps * frob (toMat n n a) ∧
      ∀ k, σ k ≠ k → σ (σ k) = k ∧ ((σ k : Nat) = k + 1 ∨ (k : Nat) = σ k + 1) ∧
        |r.1.get k| + |r.1.get (σ k)| ≤ (1 + 2 * eps) * a.amax) (fun e => e = .fuel) :=
  wp_conseq (symmetricEig_sums fuel a heps ha hn hs) fun _ ⟨Q, σ, h1, h2, h3, h4, h5, _⟩ => ⟨Q, σ, h1, h2, h3, h4, h5⟩

end LinfaLinalg
