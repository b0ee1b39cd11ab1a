import Verif.Proofs.Cholesky
import Verif.Proofs.TriangularReal

/-! # Cholesky over the reals -/

namespace LinfaLinalg

open Matrix

/-- Entries of the lower triangle of `b`. -/
noncomputable def lowEnt (b : Arr2 ℝ) (r c : Nat) : ℝ := if c ≤ r then b.get r c else 0

theorem triPart_lower_apply {n : Nat} (b : Arr2 ℝ) (i j : Fin n) :
    triPart .lower (toMat n n b) i j = lowEnt b i j := by
  simp [triPart, lowEnt]

theorem dot_split (b : Arr2 ℝ) (n r c : Nat) (hc : c ≤ r) (hn : r < n) :
    ∑ k ∈ Finset.range n, lowEnt b r k * lowEnt b c k =
      (∑ k ∈ Finset.range c, b.get c k * b.get r k) + b.get r c * b.get c c := by
  have h1 : ∑ k ∈ Finset.range n, lowEnt b r k * lowEnt b c k =
      ∑ k ∈ Finset.range (c + 1), lowEnt b r k * lowEnt b c k := by
    symm
    apply Finset.sum_subset
    · intro k hk; rw [Finset.mem_range] at *; omega
    · intro k _ hk
      rw [Finset.mem_range] at hk
      have : lowEnt b c k = 0 := by unfold lowEnt; rw [if_neg (by omega)]
      rw [this, mul_zero]
  rw [h1, Finset.sum_range_succ]
  congr 1
  · apply Finset.sum_congr rfl
    intro k hk
    rw [Finset.mem_range] at hk
    unfold lowEnt
    rw [if_pos (by omega), if_pos (by omega), mul_comm]
  · unfold lowEnt
    rw [if_pos hc, if_pos le_rfl]

theorem cholRows_diag_pos {m : Nat} {A b : Arr2 ℝ} (h : CholRows m A b) (r : Nat) (hr : r < m) :
    0 < b.get r r := by
  rw [h.diag r hr]
  have := h.piv r hr
  simp only [real_le, decide_eq_false_iff_not, not_le] at this
  exact Real.sqrt_pos.2 this

theorem offRow_real {A b : Arr2 ℝ} {r c : Nat} (h : OffRow A b r) (hc : c < r)
    (hp : 0 < b.get c c) :
    (∑ k ∈ Finset.range c, b.get c k * b.get r k) + b.get r c * b.get c c = A.get r c := by
  have h1 := h c hc
  rw [sumTo_eq] at h1
  rw [h1]
  field_simp
  ring

theorem cholRows_diag_eq {m : Nat} {A b : Arr2 ℝ} (h : CholRows m A b) (r : Nat) (hr : r < m) :
    (∑ k ∈ Finset.range r, b.get r k * b.get r k) + b.get r r * b.get r r = A.get r r := by
  have hp := h.piv r hr
  simp only [real_le, decide_eq_false_iff_not, not_le] at hp
  rw [h.diag r hr, real_sqrt, Real.mul_self_sqrt hp.le, pivot, sumTo_eq]
  ring

/-- The product of the computed factor with its transpose, on natural-number indices. -/
theorem cholRows_dot {m : Nat} {A b : Arr2 ℝ} (h : CholRows m A b) (n r c : Nat) (hc : c ≤ r)
    (hr : r < m) (hn : m ≤ n) :
    ∑ k ∈ Finset.range n, lowEnt b r k * lowEnt b c k = A.get r c := by
  rw [dot_split b n r c hc (by omega)]
  rcases Nat.lt_or_eq_of_le hc with hc | rfl
  · exact offRow_real (h.off r hr) hc (cholRows_diag_pos h c (by omega))
  · exact cholRows_diag_eq h c hr

theorem cholRows_mul {n : Nat} {A b : Arr2 ℝ} (h : CholRows n A b)
    (hs : (toMat n n A).IsSymm) :
    triPart .lower (toMat n n b) * (triPart .lower (toMat n n b))ᵀ = toMat n n A := by
  ext i j
  rw [Matrix.mul_apply]
  have hcongr : ∀ k : Fin n, triPart .lower (toMat n n b) i k *
      (triPart .lower (toMat n n b))ᵀ k j = lowEnt b i k * lowEnt b j k := by
    intro k; rw [Matrix.transpose_apply, triPart_lower_apply, triPart_lower_apply]
  rw [Finset.sum_congr rfl fun k _ => hcongr k,
    ← Finset.sum_range (fun k => lowEnt b i k * lowEnt b j k)]
  rcases le_total (j : Nat) (i : Nat) with hij | hij
  · rw [cholRows_dot h n i j hij i.2 le_rfl]; rfl
  · rw [← hs.apply i j, toMat_apply, ← cholRows_dot h n j i hij j.2 le_rfl]
    apply Finset.sum_congr rfl
    intro k _; ring

theorem cholRows_lowerPos {n : Nat} {A b : Arr2 ℝ} (h : CholRows n A b) :
    LowerPos (triPart .lower (toMat n n b)) := by
  constructor
  · intro i j hij
    rw [triPart_lower_apply, lowEnt, if_neg (by simpa using hij)]
  · intro i
    rw [triPart_lower_apply, lowEnt, if_pos le_rfl]
    exact cholRows_diag_pos h i i.2

theorem LowerPos.isUnit {n : Nat} {L : Matrix (Fin n) (Fin n) ℝ} (h : LowerPos L) : IsUnit L := by
  rw [Matrix.isUnit_iff_isUnit_det, Matrix.det_of_isLowerTriangular, isUnit_iff_ne_zero,
    Finset.prod_ne_zero_iff]
  · intro i _
    exact (h.2 i).ne'
  · intro i j hij
    exact h.1 i j hij

theorem dotProduct_self_pos {n : Nat} {y : Fin n → ℝ} (hy : y ≠ 0) : 0 < y ⬝ᵥ y := by
  rw [dotProduct]
  obtain ⟨i, hi⟩ := Function.ne_iff.1 hy
  apply Finset.sum_pos' (fun j _ => mul_self_nonneg _)
  exact ⟨i, Finset.mem_univ _, mul_self_pos.2 hi⟩

theorem LowerPos.symPosDef {n : Nat} {L : Matrix (Fin n) (Fin n) ℝ} (h : LowerPos L) :
    SymPosDef (L * Lᵀ) := by
  constructor
  · rw [Matrix.IsSymm, Matrix.transpose_mul, Matrix.transpose_transpose]
  · intro x hx
    rw [← Matrix.mulVec_mulVec, Matrix.dotProduct_mulVec, ← Matrix.mulVec_transpose]
    apply dotProduct_self_pos
    intro h0
    apply hx
    have hu : IsUnit Lᵀ := by
      rw [Matrix.isUnit_transpose]; exact h.isUnit
    have := Matrix.mulVec_injective_of_isUnit hu
    apply this
    rw [h0, Matrix.mulVec_zero]

/-- Two lower-triangular factors with positive diagonals of the same matrix agree. -/
theorem LowerPos.unique {n : Nat} {L K : Matrix (Fin n) (Fin n) ℝ} (hL : LowerPos L)
    (hK : LowerPos K) (h : L * Lᵀ = K * Kᵀ) : L = K := by
  have key : ∀ c : Nat, ∀ hc : c < n, ∀ r : Fin n, L r ⟨c, hc⟩ = K r ⟨c, hc⟩ := by
    intro c
    induction c using Nat.strong_induction_on with
    | _ c ih =>
    intro hc r
    have split : ∀ M : Matrix (Fin n) (Fin n) ℝ, LowerPos M → ∀ r : Fin n,
        (M * Mᵀ) r ⟨c, hc⟩ = (∑ k : Fin n, if (k : Nat) < c then M r k * M ⟨c, hc⟩ k else 0) +
          M r ⟨c, hc⟩ * M ⟨c, hc⟩ ⟨c, hc⟩ := by
      intro M hM r
      rw [Matrix.mul_apply]
      have : ∀ k : Fin n, M r k * Mᵀ k ⟨c, hc⟩ =
          (if (k : Nat) < c then M r k * M ⟨c, hc⟩ k else 0) +
          (if k = ⟨c, hc⟩ then M r ⟨c, hc⟩ * M ⟨c, hc⟩ ⟨c, hc⟩ else 0) := by
        intro k
        rw [Matrix.transpose_apply]
        rcases lt_trichotomy (k : Nat) c with hk | hk | hk
        · rw [if_pos hk, if_neg (by intro h; simp [h] at hk), add_zero]
        · have hk' : k = ⟨c, hc⟩ := Fin.ext hk
          rw [if_neg (by omega), if_pos hk', hk', zero_add]
        · rw [if_neg (by omega), if_neg (by intro h; simp [h] at hk), hM.1 ⟨c, hc⟩ k hk]
          simp
      rw [Finset.sum_congr rfl fun k _ => this k, Finset.sum_add_distrib,
        Finset.sum_ite_eq' Finset.univ, if_pos (Finset.mem_univ _)]
    have hsum : ∀ r : Fin n, (∑ k : Fin n, if (k : Nat) < c then L r k * L ⟨c, hc⟩ k else 0) =
        ∑ k : Fin n, if (k : Nat) < c then K r k * K ⟨c, hc⟩ k else 0 := by
      intro r
      apply Finset.sum_congr rfl
      intro k _
      by_cases hk : (k : Nat) < c
      · rw [if_pos hk, if_pos hk]
        have h1 := ih k hk k.2 r
        have h2 := ih k hk k.2 ⟨c, hc⟩
        simp only [Fin.eta] at h1 h2
        rw [h1, h2]
      · rw [if_neg hk, if_neg hk]
    have heq : ∀ r : Fin n, L r ⟨c, hc⟩ * L ⟨c, hc⟩ ⟨c, hc⟩ = K r ⟨c, hc⟩ * K ⟨c, hc⟩ ⟨c, hc⟩ := by
      intro r
      have h1 := split L hL r
      have h2 := split K hK r
      rw [h, h2, hsum r] at h1
      linarith
    have hd : L ⟨c, hc⟩ ⟨c, hc⟩ = K ⟨c, hc⟩ ⟨c, hc⟩ := by
      have := heq ⟨c, hc⟩
      exact (mul_self_inj (hL.2 _).le (hK.2 _).le).1 this
    have := heq r
    rw [hd] at this
    exact mul_right_cancel₀ (hK.2 _).ne' this
  ext r c
  exact key c c.2 r

/-- A rejected pivot exhibits a vector on which the quadratic form is not positive. -/
theorem cholFailed_not_posDef {n j : Nat} {A b : Arr2 ℝ} (hj : j < n) (h : CholFailed j A b) :
    ¬ SymPosDef (toMat n n A) := by
  intro hpd
  have hs := hpd.1
  -- the leading rows are a valid partial factorization
  have hdpos : ∀ r, r < j → 0 < b.get r r := by
    intro r hr
    rw [h.diag r hr]
    have := h.piv r hr
    simp only [real_le, decide_eq_false_iff_not, not_le] at this
    exact Real.sqrt_pos.2 this
  set δ : ℝ := pivot A b j with hδ
  have hbad : δ ≤ 0 := by simpa using h.bad
  -- the factor, completed by ones on the diagonal
  let M : Matrix (Fin n) (Fin n) ℝ := Matrix.of fun r c =>
    if (r : Nat) ≤ j ∧ (c : Nat) < r then b.get r c
    else if r = c then (if (r : Nat) < j then b.get r r else 1) else 0
  let D : Fin n → ℝ := fun k => if (k : Nat) = j then δ else 1
  have hMlow : ∀ r c : Fin n, r < c → M r c = 0 := by
    intro r c hrc
    have h1 : ¬ ((r : Nat) ≤ j ∧ (c : Nat) < r) := by
      intro h; have : (r : Nat) < c := hrc; omega
    have h2 : r ≠ c := by rintro rfl; exact lt_irrefl _ hrc
    simp only [M, Matrix.of_apply, if_neg h1, if_neg h2]
  have hMd : ∀ r : Fin n, 0 < M r r := by
    intro r
    by_cases hr : (r : Nat) < j
    · simp [M, hr, hdpos r hr]
    · simp [M, hr]
  have hM : LowerPos M := ⟨hMlow, hMd⟩
  have hu : IsUnit Mᵀ := by rw [Matrix.isUnit_transpose]; exact hM.isUnit
  obtain ⟨x, hx⟩ : ∃ x, Mᵀ.mulVec x = Pi.single ⟨j, hj⟩ 1 :=
    Matrix.mulVec_surjective_iff_isUnit.2 hu _
  have hx0 : x ≠ 0 := by
    rintro rfl
    rw [Matrix.mulVec_zero] at hx
    have := congrFun hx ⟨j, hj⟩
    simp at this
  have hxs : ∀ i : Fin n, j < (i : Nat) → x i = 0 := by
    intro i hi
    have := congrFun hx i
    rw [Matrix.mulVec, dotProduct] at this
    have hne : i ≠ ⟨j, hj⟩ := by rintro rfl; simp at hi
    rw [Pi.single_eq_of_ne hne] at this
    rw [← this]
    rw [Finset.sum_eq_single i]
    · have : M i i = 1 := by
        have h1 : ¬ ((i : Nat) < j) := by omega
        simp [M, h1]
      rw [Matrix.transpose_apply, this, one_mul]
    · intro k _ hk
      rw [Matrix.transpose_apply]
      have : M k i = 0 := by
        have h1 : ¬ ((k : Nat) ≤ j ∧ (i : Nat) < k) := by omega
        simp only [M, Matrix.of_apply, if_neg h1, if_neg hk]
      rw [this, zero_mul]
    · intro h; exact absurd (Finset.mem_univ _) h
  -- on the leading block, A = M D Mᵀ
  have hA : ∀ r c : Fin n, (r : Nat) ≤ j → (c : Nat) ≤ j →
      toMat n n A r c = ∑ k : Fin n, M r k * D k * M c k := by
    have main : ∀ r c : Fin n, (r : Nat) ≤ j → (c : Nat) ≤ r →
        toMat n n A r c = ∑ k : Fin n, M r k * D k * M c k := by
      intro r c hr hc
      have hterm : ∀ k : Fin n, M r k * D k * M c k =
          (if (k : Nat) < c then b.get c k * b.get r k else 0) +
          (if k = c then M r c * D c * M c c else 0) := by
        intro k
        rcases lt_trichotomy (k : Nat) (c : Nat) with hk | hk | hk
        · have hkc : k ≠ c := by rintro rfl; exact lt_irrefl _ hk
          rw [if_pos hk, if_neg hkc, add_zero]
          have h1 : (r : Nat) ≤ j ∧ (k : Nat) < r := by omega
          have h2 : (c : Nat) ≤ j ∧ (k : Nat) < c := by omega
          have h3 : (k : Nat) ≠ j := by omega
          simp only [M, D, Matrix.of_apply, if_pos h1, if_pos h2, if_neg h3]
          ring
        · obtain rfl : k = c := Fin.ext hk
          rw [if_neg (lt_irrefl _), if_pos rfl, zero_add]
        · have hkc : k ≠ c := by rintro rfl; exact lt_irrefl _ hk
          rw [if_neg (by omega), if_neg hkc, hMlow c k hk]
          simp
      rw [Finset.sum_congr rfl fun k _ => hterm k, Finset.sum_add_distrib,
        Finset.sum_ite_eq' Finset.univ, if_pos (Finset.mem_univ _)]
      have hs1 : (∑ k : Fin n, if (k : Nat) < c then b.get c k * b.get r k else 0) =
          ∑ k ∈ Finset.range c, b.get c k * b.get r k := by
        rw [← Finset.sum_range (fun k => if k < (c : Nat) then b.get c k * b.get r k else 0),
          ← Finset.sum_filter]
        apply Finset.sum_congr _ fun _ _ => rfl
        ext k
        simp only [Finset.mem_filter, Finset.mem_range]
        omega
      rw [hs1, toMat_apply]
      rcases Nat.lt_or_eq_of_le hc with hlt | heq
      · have h1 : (r : Nat) ≤ j ∧ (c : Nat) < r := ⟨hr, hlt⟩
        have h2 : (c : Nat) < j := by omega
        have h3 : (c : Nat) ≠ j := by omega
        have e1 : M r c = b.get r c := by simp only [M, Matrix.of_apply, if_pos h1]
        have e2 : M c c = b.get c c := by simp [M, h2]
        have e3 : D c = 1 := by simp [D, h3]
        rw [e1, e2, e3, mul_one]
        exact (offRow_real (h.off r hr) hlt (hdpos c h2)).symm
      · obtain rfl : c = r := Fin.ext heq
        by_cases hcj : (c : Nat) < j
        · have e2 : M c c = b.get c c := by simp [M, hcj]
          have e3 : D c = 1 := by simp [D, hcj.ne]
          rw [e2, e3, mul_one]
          have hp := h.piv c hcj
          simp only [real_le, decide_eq_false_iff_not, not_le] at hp
          rw [h.diag c hcj, real_sqrt, Real.mul_self_sqrt hp.le, pivot, sumTo_eq]
          ring
        · have hcj' : (c : Nat) = j := by omega
          have e2 : M c c = 1 := by simp [M, hcj]
          have e3 : D c = δ := by simp [D, hcj']
          rw [e2, e3, hδ, pivot, sumTo_eq, hcj']
          ring
    intro r c hr hc
    rcases le_total (c : Nat) (r : Nat) with hcr | hcr
    · exact main r c hr hcr
    · rw [← hs.apply r c, main c r hc hcr]
      apply Finset.sum_congr rfl
      intro k _; ring
  have hq : x ⬝ᵥ (toMat n n A).mulVec x = δ := by
    have e1 : x ⬝ᵥ (toMat n n A).mulVec x =
        ∑ r : Fin n, ∑ c : Fin n, x r * ((∑ k : Fin n, M r k * D k * M c k) * x c) := by
      rw [dotProduct]
      apply Finset.sum_congr rfl
      intro r _
      rw [Matrix.mulVec, dotProduct, Finset.mul_sum]
      apply Finset.sum_congr rfl
      intro c _
      by_cases hr : (r : Nat) ≤ j
      · by_cases hc : (c : Nat) ≤ j
        · rw [hA r c hr hc]
        · rw [hxs c (by omega)]; simp
      · rw [hxs r (by omega)]; simp
    have e2 : ∑ r : Fin n, ∑ c : Fin n, x r * ((∑ k : Fin n, M r k * D k * M c k) * x c) =
        ∑ k : Fin n, D k * ((Mᵀ.mulVec x) k * (Mᵀ.mulVec x) k) := by
      simp only [Matrix.mulVec, dotProduct, Matrix.transpose_apply, Finset.mul_sum,
        Finset.sum_mul]
      rw [Finset.sum_comm]
      rw [Finset.sum_congr rfl fun c _ => Finset.sum_comm, Finset.sum_comm]
      apply Finset.sum_congr rfl; intro k _
      apply Finset.sum_congr rfl; intro c _
      apply Finset.sum_congr rfl; intro r _
      ring
    rw [e1, e2, hx, Finset.sum_eq_single ⟨j, hj⟩]
    · simp [D]
    · intro k _ hk; rw [Pi.single_eq_of_ne hk]; ring
    · intro h; exact absurd (Finset.mem_univ _) h
  have := hpd.2 x hx0
  rw [hq] at this
  linarith

end LinfaLinalg
