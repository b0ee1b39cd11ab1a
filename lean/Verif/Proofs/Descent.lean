import Verif.Proofs.LobpcgRitz
import Verif.Proofs.ForwardErr

/-! # One Rayleigh-Ritz step lowers the sum of the Ritz values

The smallest values of a compressed operator add up to no more than the trace over any orthonormal set of
the subspace (Ky Fan). Replacing one Ritz vector `x` by `x - t e`, normalised, gives the decrease. -/

namespace LinfaLinalg

open Matrix

variable {n s k : Nat}

/-- The rows of a matrix with orthonormal columns are no longer than one. -/
theorem row_le_one {C : Matrix (Fin s) (Fin k) ℝ} (hC : Cᵀ * C = 1) (i : Fin s) : ∑ j, C i j ^ 2 ≤ 1 := by
  set p : Matrix (Fin s) (Fin s) ℝ := C * Cᵀ with hp
  have h1 : p * p = p := by
    rw [hp, Matrix.mul_assoc, ← Matrix.mul_assoc Cᵀ, hC, Matrix.one_mul]
  have h2 : p i i = ∑ j, C i j ^ 2 := by
    rw [hp, Matrix.mul_apply]
    exact Finset.sum_congr rfl fun j _ => by rw [transpose_apply, sq]
  have hsym : ∀ t, p t i = p i t := by
    intro t
    rw [hp, Matrix.mul_apply, Matrix.mul_apply]
    exact Finset.sum_congr rfl fun j _ => by rw [transpose_apply, transpose_apply, mul_comm]
  have h3 : p i i ^ 2 ≤ p i i := by
    conv_rhs => rw [← h1, Matrix.mul_apply]
    rw [sq]
    exact Finset.single_le_sum (f := fun t => p i t * p t i)
      (fun t _ => by rw [hsym]; exact mul_self_nonneg _) (Finset.mem_univ i)
  rw [← h2]
  nlinarith [sq_nonneg (p i i - 1)]

/-- Ky Fan: the sum of the first `k` entries of an increasing diagonal is at most the trace over any `k`
orthonormal vectors. -/
theorem ky_fan (hks : k ≤ s) {L : Fin s → ℝ} (hL : ∀ i j, i ≤ j → L i ≤ L j) {C : Matrix (Fin s) (Fin k) ℝ}
    (hC : Cᵀ * C = 1) : ∑ j : Fin k, L (Fin.castLE hks j) ≤ ∑ j, ∑ i, L i * C i j ^ 2 := by
  obtain rfl | hk := Nat.eq_zero_or_pos k
  · simp
  set c := L ⟨k - 1, by omega⟩ with hc
  have hcol : ∀ j, ∑ i, C i j ^ 2 = 1 := by
    intro j
    have := congrFun (congrFun hC j) j
    rw [Matrix.mul_apply, one_apply_eq] at this
    rw [← this]
    exact Finset.sum_congr rfl fun i _ => by rw [transpose_apply, sq]
  have htot : ∑ i, ∑ j, C i j ^ 2 = (k : ℝ) := by
    rw [Finset.sum_comm, Finset.sum_congr rfl fun j _ => hcol j]
    simp
  have hlow : ∑ i : Fin s, (if i.val < k then (L i - c) else 0) = ∑ j : Fin k, (L (Fin.castLE hks j) - c) := by
    rw [← Finset.sum_filter]
    symm
    refine Finset.sum_bij (fun j _ => Fin.castLE hks j) ?_ ?_ ?_ ?_
    · intro j _; simp
    · intro a _ b _ h; exact Fin.castLE_injective hks h
    · intro i hi
      have : i.val < k := by simpa using hi
      exact ⟨⟨i, this⟩, Finset.mem_univ _, rfl⟩
    · intro j _; rfl
  have hpt : ∀ i : Fin s, (if i.val < k then (L i - c) else 0) ≤ (L i - c) * ∑ j, C i j ^ 2 := by
    intro i
    have h0 : 0 ≤ ∑ j, C i j ^ 2 := Finset.sum_nonneg fun j _ => sq_nonneg _
    have h1 := row_le_one hC i
    split_ifs with hi
    · have : L i - c ≤ 0 := sub_nonpos.2 (hL _ _ (Fin.le_def.2 (by simp; omega)))
      nlinarith
    · have : 0 ≤ L i - c := sub_nonneg.2 (hL _ _ (Fin.le_def.2 (by simp; omega)))
      positivity
  have h1 := Finset.sum_le_sum fun i (_ : i ∈ Finset.univ) => hpt i
  rw [hlow] at h1
  have h2 : ∑ i, (L i - c) * ∑ j, C i j ^ 2 = (∑ i, L i * ∑ j, C i j ^ 2) - c * k := by
    rw [← htot, Finset.mul_sum, ← Finset.sum_sub_distrib]
    exact Finset.sum_congr rfl fun i _ => by ring
  have h3 : ∑ j, ∑ i, L i * C i j ^ 2 = ∑ i, L i * ∑ j, C i j ^ 2 := by
    rw [Finset.sum_comm]
    exact Finset.sum_congr rfl fun i _ => by rw [Finset.mul_sum]
  rw [Finset.sum_sub_distrib, h2] at h1
  simp only [Finset.sum_const, Finset.card_univ, Fintype.card_fin, nsmul_eq_mul] at h1
  rw [h3]
  linarith

/-- The arithmetic of the step length. -/
theorem descent_arith {a μ γ β : ℝ} (ha : 0 < a) (h1 : γ - μ ≤ 2 * a) (h2 : β ^ 2 ≤ a ^ 2) :
    (μ - 2 * (β / (2 * a)) * β + (β / (2 * a)) ^ 2 * γ) / (1 + (β / (2 * a)) ^ 2) ≤
      μ - 2 / 5 * β ^ 2 / a := by
  have hp : 0 < 1 + (β / (2 * a)) ^ 2 := by positivity
  rw [div_le_iff₀ hp]
  set t := β / (2 * a) with ht
  have hβ : β = 2 * a * t := by rw [ht]; field_simp
  have ht2 : t ^ 2 ≤ 1 / 4 := by
    rw [hβ] at h2
    have : (4 * a ^ 2) * t ^ 2 ≤ a ^ 2 := by nlinarith
    have ha2 : 0 < a ^ 2 := by positivity
    by_contra hcon
    push Not at hcon
    nlinarith
  have e : 2 / 5 * β ^ 2 / a = 8 / 5 * a * t ^ 2 := by rw [hβ]; field_simp; ring
  rw [e, hβ]
  have h3 : t ^ 2 * (γ - μ) ≤ t ^ 2 * (2 * a) := mul_le_mul_of_nonneg_left h1 (sq_nonneg t)
  have h4 : a * t ^ 2 * t ^ 2 ≤ a * t ^ 2 * (1 / 4) := mul_le_mul_of_nonneg_left ht2 (by positivity)
  nlinarith

/-- The decrease in one step, in coordinates that diagonalise the projected operator. -/
theorem ritz_descent (hks : k ≤ s) {L : Fin s → ℝ} (hL : ∀ i j, i ≤ j → L i ≤ L j)
    {μ : Fin k → ℝ} {C : Matrix (Fin s) (Fin k) ℝ} (hC : Cᵀ * C = 1)
    (hD : ∀ j, ∑ i, L i * C i j ^ 2 = μ j) {g : Fin s → ℝ} (hg : ∑ i, g i ^ 2 = 1)
    (hCg : ∀ j, ∑ i, C i j * g i = 0) {a : ℝ} (ha : 0 < a) (j : Fin k)
    (h1 : ∑ i, L i * g i ^ 2 - μ j ≤ 2 * a) (h2 : (∑ i, L i * C i j * g i) ^ 2 ≤ a ^ 2) :
    ∑ j : Fin k, L (Fin.castLE hks j) ≤ ∑ j, μ j - 2 / 5 * (∑ i, L i * C i j * g i) ^ 2 / a := by
  set β := ∑ i, L i * C i j * g i with hβ
  set t := β / (2 * a) with ht
  set q := 1 + t ^ 2 with hq
  have hq0 : 0 < q := by rw [hq]; positivity
  have hs0 : Real.sqrt q ≠ 0 := (Real.sqrt_pos.2 hq0).ne'
  have hss : Real.sqrt q ^ 2 = q := Real.sq_sqrt hq0.le
  have hcol : ∀ j j', ∑ i, C i j * C i j' = if j = j' then 1 else 0 := by
    intro j j'
    have := congrFun (congrFun hC j) j'
    rw [Matrix.mul_apply, one_apply] at this
    exact this
  let C' : Matrix (Fin s) (Fin k) ℝ := Matrix.of fun i j' =>
    if j' = j then (C i j - t * g i) / Real.sqrt q else C i j'
  have e1 : ∀ i, C' i j = (C i j - t * g i) / Real.sqrt q := fun i => by simp [C']
  have e2 : ∀ i j', j' ≠ j → C' i j' = C i j' := fun i j' h => by simp [C', h]
  have hjj : ∑ i, (C i j - t * g i) ^ 2 = q := by
    have : ∀ i, (C i j - t * g i) ^ 2 = C i j * C i j - 2 * t * (C i j * g i) + t ^ 2 * g i ^ 2 :=
      fun i => by ring
    simp only [this, Finset.sum_add_distrib, Finset.sum_sub_distrib, ← Finset.mul_sum, hg, hCg, hcol, hq]
    simp
  have hC' : C'ᵀ * C' = 1 := by
    ext x y
    rw [Matrix.mul_apply, one_apply]
    simp only [transpose_apply]
    have hoff : ∀ y, y ≠ j → ∑ i, C' i j * C' i y = 0 := by
      intro y hy
      have : ∀ i, C' i j * C' i y = (C i j * C i y - t * (C i y * g i)) / Real.sqrt q := by
        intro i; rw [e1, e2 i y hy]; ring
      simp only [this, ← Finset.sum_div, Finset.sum_sub_distrib, ← Finset.mul_sum, hCg, hcol]
      rw [if_neg (fun h => hy h.symm)]
      simp
    by_cases hx : x = j
    · subst hx
      by_cases hy : y = x
      · subst hy
        rw [if_pos rfl]
        have : ∀ i, C' i y * C' i y = (C i y - t * g i) ^ 2 / q := by
          intro i; rw [e1, ← sq, div_pow, hss]
        simp only [this, ← Finset.sum_div, hjj]
        exact div_self hq0.ne'
      · rw [if_neg (fun h => hy h.symm)]
        exact hoff y hy
    · by_cases hy : y = j
      · subst hy
        rw [if_neg hx, ← hoff x hx]
        exact Finset.sum_congr rfl fun i _ => mul_comm _ _
      · rw [← hcol x y]
        exact Finset.sum_congr rfl fun i _ => by rw [e2 i x hx, e2 i y hy]
  have hval : ∑ i, L i * C' i j ^ 2 = (μ j - 2 * t * β + t ^ 2 * ∑ i, L i * g i ^ 2) / q := by
    have : ∀ i, L i * C' i j ^ 2 =
        (L i * C i j ^ 2 - 2 * t * (L i * C i j * g i) + t ^ 2 * (L i * g i ^ 2)) / q := by
      intro i; rw [e1, div_pow, hss]; ring
    simp only [this, ← Finset.sum_div, Finset.sum_add_distrib, Finset.sum_sub_distrib, ← Finset.mul_sum, hD]
    rfl
  refine (ky_fan hks hL hC').trans ?_
  rw [← Finset.add_sum_erase _ _ (Finset.mem_univ j), ← Finset.add_sum_erase _ μ (Finset.mem_univ j), hval]
  have hrest : ∑ x ∈ Finset.univ.erase j, ∑ i, L i * C' i x ^ 2 = ∑ x ∈ Finset.univ.erase j, μ x := by
    refine Finset.sum_congr rfl fun x hx => ?_
    rw [← hD x]
    exact Finset.sum_congr rfl fun i _ => by rw [e2 i x (Finset.ne_of_mem_erase hx)]
  rw [hrest]
  have := descent_arith ha h1 h2
  linarith

/-- The decrease in one step, for an orthonormal basis `U` of the trial space that diagonalises the projected
operator. -/
theorem space_descent (hks : k ≤ s) {A : Matrix (Fin n) (Fin n) ℝ} {U : Matrix (Fin n) (Fin s) ℝ}
    {L : Fin s → ℝ} (hL : ∀ i j, i ≤ j → L i ≤ L j) (hU : Uᵀ * U = 1) (hUA : Uᵀ * A * U = diagonal L)
    {X : Matrix (Fin n) (Fin k) ℝ} {C : Matrix (Fin s) (Fin k) ℝ} {μ : Fin k → ℝ} (hX : X = U * C)
    (hX1 : Xᵀ * X = 1) (hXA : Xᵀ * A * X = diagonal μ) {d : Fin n → ℝ} {h : Fin s → ℝ} (hd : d = U *ᵥ h)
    (hXd : Xᵀ *ᵥ d = 0) (hd0 : 0 < d ⬝ᵥ d) {a : ℝ} (ha : 0 < a) (hA : ∀ x, len (A *ᵥ x) ≤ a * len x)
    (j : Fin k) :
    ∑ j : Fin k, L (Fin.castLE hks j) ≤
      ∑ j, μ j - 2 / 5 * ((d ⬝ᵥ A *ᵥ X.col j) ^ 2 / (d ⬝ᵥ d)) / a := by
  have hC1 : Cᵀ * C = 1 := by
    rw [← hX1, hX, transpose_mul, Matrix.mul_assoc, ← Matrix.mul_assoc Uᵀ, hU, Matrix.one_mul]
  have hCD : Cᵀ * diagonal L * C = diagonal μ := by
    rw [← hXA, ← hUA, hX, transpose_mul]
    simp only [Matrix.mul_assoc]
  have hcolU : X.col j = U *ᵥ C.col j := by
    rw [hX]; rfl
  -- forms in the two bases
  have hform : ∀ p q : Fin s → ℝ, (U *ᵥ p) ⬝ᵥ A *ᵥ (U *ᵥ q) = ∑ i, L i * q i * p i := by
    intro p q
    rw [mulVec_dot, mulVec_mulVec, mulVec_mulVec, hUA]
    simp only [dotProduct, mulVec_diagonal]
    exact Finset.sum_congr rfl fun i _ => by ring
  have hdot : ∀ p q : Fin s → ℝ, (U *ᵥ p) ⬝ᵥ (U *ᵥ q) = p ⬝ᵥ q := by
    intro p q
    rw [mulVec_dot, mulVec_mulVec, hU, one_mulVec]
  have hhh : h ⬝ᵥ h = d ⬝ᵥ d := by rw [hd, hdot]
  set ν := d ⬝ᵥ d with hν
  have hs0 : 0 < Real.sqrt ν := Real.sqrt_pos.2 hd0
  have hss : Real.sqrt ν ^ 2 = ν := Real.sq_sqrt hd0.le
  have hlend : len d = Real.sqrt ν := by
    rw [len, hν]; congr 1; exact Finset.sum_congr rfl fun i _ => by rw [sq]
  have hlenx : len (X.col j) = 1 := by
    have h1 := congrFun (congrFun hX1 j) j
    rw [Matrix.mul_apply, one_apply_eq] at h1
    rw [len, Real.sqrt_eq_one, ← h1]
    exact Finset.sum_congr rfl fun i _ => by rw [transpose_apply, sq, col_apply]
  have hμ : ∀ j, ∑ i, L i * C i j ^ 2 = μ j := by
    intro j
    have h1 := congrFun (congrFun hCD j) j
    rw [diagonal_apply_eq, Matrix.mul_apply] at h1
    rw [← h1]
    exact Finset.sum_congr rfl fun i _ => by rw [mul_diagonal, transpose_apply]; ring
  have hform' : ∑ i, L i * C i j * (h i / Real.sqrt ν) = d ⬝ᵥ A *ᵥ X.col j / Real.sqrt ν := by
    rw [hd, hcolU, hform, Finset.sum_div]
    exact Finset.sum_congr rfl fun i _ => by rw [col_apply]; ring
  have hμj : -a ≤ μ j := by
    have h1 : X.col j ⬝ᵥ A *ᵥ X.col j = μ j := by
      rw [hcolU, hform, ← hμ j]
      exact Finset.sum_congr rfl fun i _ => by rw [col_apply]; ring
    have h2 := abs_dot_le_len (X.col j) (A *ᵥ X.col j)
    have h3 := hA (X.col j)
    rw [h1, hlenx, one_mul] at h2
    rw [hlenx, mul_one] at h3
    exact (abs_le.1 (h2.trans h3)).1
  have key := ritz_descent hks hL hC1 hμ (g := fun i => h i / Real.sqrt ν) ?_ ?_ ha j ?_ ?_
  · rw [hform', div_pow, hss] at key
    exact key
  · simp only [div_pow, hss, ← Finset.sum_div]
    rw [div_eq_one_iff_eq hd0.ne', ← hhh]
    exact Finset.sum_congr rfl fun i _ => by rw [sq]
  · intro j'
    have h1 := congrFun hXd j'
    have h2 : (Xᵀ *ᵥ d) j' = ∑ i, C i j' * h i := by
      have h3 : (Xᵀ *ᵥ d) j' = (U *ᵥ C.col j') ⬝ᵥ d := by rw [hX]; rfl
      rw [h3, hd, hdot]
      rfl
    rw [h2] at h1
    have h4 : ∀ i, C i j' * (h i / Real.sqrt ν) = C i j' * h i / Real.sqrt ν := fun i => by ring
    simp only [h4, ← Finset.sum_div]
    rw [h1]
    simp
  · have h1 : ∑ i, L i * (h i / Real.sqrt ν) ^ 2 = d ⬝ᵥ A *ᵥ d / ν := by
      rw [hd, hform, Finset.sum_div]
      exact Finset.sum_congr rfl fun i _ => by rw [div_pow, hss]; ring
    have h2 : d ⬝ᵥ A *ᵥ d / ν ≤ a := by
      rw [div_le_iff₀ hd0]
      have h3 := (le_abs_self _).trans (abs_dot_le_len d (A *ᵥ d))
      have h4 := mul_le_mul_of_nonneg_left (hA d) (len_nonneg d)
      rw [hlend] at h3 h4
      nlinarith
    rw [h1]
    linarith
  · rw [hform', div_pow, hss, div_le_iff₀ hd0]
    have h3 := abs_dot_le_len d (A *ᵥ X.col j)
    have h4 := hA (X.col j)
    rw [hlenx, mul_one] at h4
    have h5 : |d ⬝ᵥ A *ᵥ X.col j| ≤ Real.sqrt ν * a := by
      rw [hlend] at h3
      exact h3.trans (mul_le_mul_of_nonneg_left h4 hs0.le)
    have h6 := pow_le_pow_left₀ (abs_nonneg _) h5 2
    rw [sq_abs, mul_pow, hss] at h6
    linarith

/-- If `k` Ritz values are at most `v` and only the `k` entries of `Λ` in `W` are not above `v`, then those
entries are at most `v`. -/
theorem wanted_le {C : Matrix (Fin n) (Fin k) ℝ} (hC : Cᵀ * C = 1) {Λ : Fin n → ℝ} {μ : Fin k → ℝ}
    (hD : Cᵀ * diagonal Λ * C = diagonal μ) {W : Finset (Fin n)} (hW : W.card = k) {v : ℝ} (hv : ∀ j, μ j ≤ v)
    (hgap : ∀ i, i ∉ W → v < Λ i) {i1 : Fin n} (hi1 : i1 ∈ W) : Λ i1 ≤ v := by
  by_contra hcon
  push Not at hcon
  let f : (Fin k → ℝ) →ₗ[ℝ] (W.erase i1 → ℝ) := Matrix.mulVecLin (Matrix.of fun i t => C i.1 t)
  have hcard : (W.erase i1).card < k := by
    rw [Finset.card_erase_of_mem hi1, hW]
    have : 0 < W.card := Finset.card_pos.2 ⟨i1, hi1⟩
    omega
  obtain ⟨z, hz, hz0⟩ := f.ker.ne_bot_iff.1 (LinearMap.ker_ne_bot_of_finrank_lt (f := f) (by
    rw [Module.finrank_fintype_fun_eq_card, Module.finrank_fintype_fun_eq_card, Fintype.card_coe, Fintype.card_fin]
    exact hcard))
  set y := C *ᵥ z with hy
  have hy0 : ∀ i ∈ W.erase i1, y i = 0 := fun i hi => congrFun (LinearMap.mem_ker.1 hz) ⟨i, hi⟩
  have e1 : y ⬝ᵥ y = z ⬝ᵥ z := by
    rw [hy, mulVec_dot, mulVec_mulVec, hC, one_mulVec]
  have e2 : y ⬝ᵥ diagonal Λ *ᵥ y = z ⬝ᵥ diagonal μ *ᵥ z := by
    rw [hy, mulVec_dot, mulVec_mulVec, mulVec_mulVec, hD]
  have e3 : z ⬝ᵥ diagonal μ *ᵥ z ≤ v * (z ⬝ᵥ z) := by
    simp only [dotProduct, mulVec_diagonal, Finset.mul_sum]
    exact Finset.sum_le_sum fun j _ => by nlinarith [hv j, mul_self_nonneg (z j)]
  have hpos : 0 < z ⬝ᵥ z := lt_of_le_of_ne (Finset.sum_nonneg fun i _ => mul_self_nonneg _)
    fun h => hz0 (dotProduct_self_eq_zero.1 h.symm)
  have hterm : ∀ i, 0 ≤ (Λ i - v) * (y i * y i) := by
    intro i
    by_cases hi : i ∈ W.erase i1
    · rw [hy0 i hi]; simp
    · have : v ≤ Λ i := by
        by_cases hii : i = i1
        · subst hii; exact hcon.le
        · exact (hgap i fun h => hi (Finset.mem_erase.2 ⟨hii, h⟩)).le
      exact mul_nonneg (by linarith) (mul_self_nonneg _)
  have e4 : ∑ i, (Λ i - v) * (y i * y i) = y ⬝ᵥ diagonal Λ *ᵥ y - v * (y ⬝ᵥ y) := by
    simp only [dotProduct, mulVec_diagonal, Finset.mul_sum, ← Finset.sum_sub_distrib]
    exact Finset.sum_congr rfl fun i _ => by ring
  have e5 : ∑ i, (Λ i - v) * (y i * y i) = 0 := by
    refine le_antisymm ?_ (Finset.sum_nonneg fun i _ => hterm i)
    rw [e4, e2, e1]
    linarith
  have e6 : ∀ i, y i = 0 := by
    intro i
    have h1 := (Finset.sum_eq_zero_iff_of_nonneg fun i _ => hterm i).1 e5 i (Finset.mem_univ i)
    by_cases hi : i ∈ W.erase i1
    · exact hy0 i hi
    · have : v < Λ i := by
        by_cases hii : i = i1
        · subst hii; exact hcon
        · exact hgap i fun h => hi (Finset.mem_erase.2 ⟨hii, h⟩)
      rcases mul_eq_zero.1 h1 with h | h
      · linarith
      · exact mul_self_eq_zero.1 h
  have : y ⬝ᵥ y = 0 := by simp [dotProduct, e6]
  rw [e1] at this
  linarith

/-- The error of the sum of the Ritz values between the angle to the wanted eigenvectors and the residuals. -/
theorem block_gap {C : Matrix (Fin n) (Fin k) ℝ} (hC : Cᵀ * C = 1) {Λ : Fin n → ℝ} {μ : Fin k → ℝ}
    (hD : Cᵀ * diagonal Λ * C = diagonal μ) {W : Finset (Fin n)} (hW : W.card = k) {v g a : ℝ} (hg : 0 < g) (ha0 : 0 ≤ a)
    (hv : ∀ j, μ j ≤ v) (hva : v ≤ a) (hgap : ∀ i, i ∉ W → v + g ≤ Λ i) (ha : ∀ i ∈ W, |Λ i| ≤ a) :
    0 ≤ (k : ℝ) - ∑ i ∈ W, ∑ j, C i j ^ 2 ∧
    g * ((k : ℝ) - ∑ i ∈ W, ∑ j, C i j ^ 2) ≤ ∑ j, μ j - ∑ i ∈ W, Λ i ∧
    ∑ j, μ j - ∑ i ∈ W, Λ i ≤ (g + 2 * a) / g ^ 2 * ∑ j, ∑ i, (Λ i - μ j) ^ 2 * C i j ^ 2 := by
  have hwanted : ∀ i ∈ W, Λ i ≤ v := fun i hi => wanted_le hC hD hW hv (fun i hi => by linarith [hgap i hi]) hi
  set w : Fin n → ℝ := fun i => ∑ j, C i j ^ 2 with hw
  have hw0 : ∀ i, 0 ≤ w i := fun i => Finset.sum_nonneg fun j _ => sq_nonneg _
  have hw1 : ∀ i, w i ≤ 1 := fun i => row_le_one hC i
  have hcol : ∀ j, ∑ i, C i j ^ 2 = 1 := by
    intro j
    have := congrFun (congrFun hC j) j
    rw [Matrix.mul_apply, one_apply_eq] at this
    rw [← this]
    exact Finset.sum_congr rfl fun i _ => by rw [transpose_apply, sq]
  have htot : ∑ i, w i = (k : ℝ) := by
    rw [hw, Finset.sum_comm, Finset.sum_congr rfl fun j _ => hcol j]
    simp
  have hμ : ∑ j, μ j = ∑ i, Λ i * w i := by
    have : ∀ j, μ j = ∑ i, Λ i * C i j ^ 2 := by
      intro j
      have := congrFun (congrFun hD j) j
      rw [diagonal_apply_eq, Matrix.mul_apply] at this
      rw [← this]
      refine Finset.sum_congr rfl fun i _ => ?_
      rw [Matrix.mul_diagonal, transpose_apply]; ring
    rw [Finset.sum_congr rfl fun j _ => this j, Finset.sum_comm]
    exact Finset.sum_congr rfl fun i _ => by rw [hw, Finset.mul_sum]
  have hsplit : ∀ f : Fin n → ℝ, ∑ i, f i = ∑ i ∈ W, f i + ∑ i ∈ Wᶜ, f i := fun f =>
    (Finset.sum_add_sum_compl W f).symm
  have hs : (k : ℝ) - ∑ i ∈ W, w i = ∑ i ∈ Wᶜ, w i := by
    rw [← htot, hsplit]; ring
  have hs' : (k : ℝ) - ∑ i ∈ W, w i = ∑ i ∈ W, (1 - w i) := by
    rw [Finset.sum_sub_distrib, Finset.sum_const, hW, nsmul_eq_mul, mul_one]
  have hs0 : 0 ≤ (k : ℝ) - ∑ i ∈ W, w i := by rw [hs]; exact Finset.sum_nonneg fun i _ => hw0 i
  have he : ∑ j, μ j - ∑ i ∈ W, Λ i = ∑ i ∈ Wᶜ, Λ i * w i - ∑ i ∈ W, Λ i * (1 - w i) := by
    rw [hμ, hsplit]
    simp only [mul_sub, mul_one, Finset.sum_sub_distrib]
    ring
  refine ⟨hs0, ?_, ?_⟩
  · have h1 : (v + g) * ∑ i ∈ Wᶜ, w i ≤ ∑ i ∈ Wᶜ, Λ i * w i := by
      rw [Finset.mul_sum]
      exact Finset.sum_le_sum fun i hi =>
        mul_le_mul_of_nonneg_right (hgap i (Finset.mem_compl.1 hi)) (hw0 i)
    have h2 : ∑ i ∈ W, Λ i * (1 - w i) ≤ v * ∑ i ∈ W, (1 - w i) := by
      rw [Finset.mul_sum]
      exact Finset.sum_le_sum fun i hi =>
        mul_le_mul_of_nonneg_right (hwanted i hi) (by linarith [hw1 i])
    rw [← hs] at h1
    rw [← hs'] at h2
    rw [he]
    linarith
  · set R := ∑ j, ∑ i, (Λ i - μ j) ^ 2 * C i j ^ 2 with hR
    have hR1 : ∑ i ∈ Wᶜ, (Λ i - v) ^ 2 * w i ≤ R := by
      rw [hR, Finset.sum_comm, hsplit]
      have h1 : 0 ≤ ∑ i ∈ W, ∑ j, (Λ i - μ j) ^ 2 * C i j ^ 2 :=
        Finset.sum_nonneg fun i _ => Finset.sum_nonneg fun j _ => by positivity
      have h2 : ∑ i ∈ Wᶜ, (Λ i - v) ^ 2 * w i ≤ ∑ i ∈ Wᶜ, ∑ j, (Λ i - μ j) ^ 2 * C i j ^ 2 := by
        refine Finset.sum_le_sum fun i hi => ?_
        rw [hw, Finset.mul_sum]
        refine Finset.sum_le_sum fun j _ => mul_le_mul_of_nonneg_right ?_ (sq_nonneg _)
        have := hgap i (Finset.mem_compl.1 hi)
        have := hv j
        exact pow_le_pow_left₀ (by linarith) (by linarith) 2
      linarith
    have hR2 : g * ∑ i ∈ Wᶜ, (Λ i - v) * w i ≤ R := by
      refine le_trans ?_ hR1
      rw [Finset.mul_sum]
      refine Finset.sum_le_sum fun i hi => ?_
      have := hgap i (Finset.mem_compl.1 hi)
      rw [← mul_assoc]
      exact mul_le_mul_of_nonneg_right (by nlinarith) (hw0 i)
    have hR3 : g ^ 2 * ((k : ℝ) - ∑ i ∈ W, w i) ≤ R := by
      refine le_trans ?_ hR1
      rw [hs, Finset.mul_sum]
      refine Finset.sum_le_sum fun i hi => ?_
      have := hgap i (Finset.mem_compl.1 hi)
      exact mul_le_mul_of_nonneg_right (pow_le_pow_left₀ hg.le (by linarith) 2) (hw0 i)
    have h1 : ∑ i ∈ Wᶜ, Λ i * w i = ∑ i ∈ Wᶜ, (Λ i - v) * w i + v * ((k : ℝ) - ∑ i ∈ W, w i) := by
      rw [hs, Finset.mul_sum, ← Finset.sum_add_distrib]
      exact Finset.sum_congr rfl fun i _ => by ring
    have h2 : -(a * ((k : ℝ) - ∑ i ∈ W, w i)) ≤ ∑ i ∈ W, Λ i * (1 - w i) := by
      rw [hs', Finset.mul_sum, ← Finset.sum_neg_distrib]
      refine Finset.sum_le_sum fun i hi => ?_
      rw [← neg_mul]
      exact mul_le_mul_of_nonneg_right (abs_le.1 (ha i hi)).1 (by linarith [hw1 i])
    have h3 : (v + a) * ((k : ℝ) - ∑ i ∈ W, w i) ≤ 2 * a * ((k : ℝ) - ∑ i ∈ W, w i) :=
      mul_le_mul_of_nonneg_right (by linarith) hs0
    have h4 : 2 * a * ((k : ℝ) - ∑ i ∈ W, w i) ≤ 2 * a / g ^ 2 * R := by
      calc _ = 2 * a / g ^ 2 * (g ^ 2 * ((k : ℝ) - ∑ i ∈ W, w i)) := by field_simp
        _ ≤ _ := mul_le_mul_of_nonneg_left hR3 (by positivity)
    have h5 : ∑ i ∈ Wᶜ, (Λ i - v) * w i ≤ 1 / g * R := by
      rw [one_div, inv_mul_eq_div, le_div_iff₀ hg]
      linarith
    have h6 : (g + 2 * a) / g ^ 2 * R = 1 / g * R + 2 * a / g ^ 2 * R := by field_simp
    rw [he, h6]
    linarith

open Classical in
/-- Coordinates that vanish: the eigenvalues that belong to them can be changed. -/
theorem deflate {C : Matrix (Fin n) (Fin k) ℝ} {Λ : Fin n → ℝ} {μ : Fin k → ℝ}
    (hD : Cᵀ * diagonal Λ * C = diagonal μ) {W : Finset (Fin n)} {b : ℝ}
    (hgap : ∀ i, i ∉ W → (∀ j, C i j = 0) ∨ b ≤ Λ i) :
    ∃ L : Fin n → ℝ, (∀ i ∈ W, L i = Λ i) ∧ (∀ i, i ∉ W → b ≤ L i) ∧ Cᵀ * diagonal L * C = diagonal μ ∧
      ∑ j, ∑ i, (L i - μ j) ^ 2 * C i j ^ 2 = ∑ j, ∑ i, (Λ i - μ j) ^ 2 * C i j ^ 2 := by
  set L : Fin n → ℝ := fun i => if i ∉ W ∧ ∀ j, C i j = 0 then b else Λ i with hL
  have hLC : ∀ i j, L i = Λ i ∨ C i j = 0 := by
    intro i j
    by_cases h : i ∉ W ∧ ∀ j, C i j = 0
    · exact .inr (h.2 j)
    · exact .inl (if_neg h)
  refine ⟨L, fun i hi => if_neg fun h => h.1 hi, fun i hi => ?_, ?_, ?_⟩
  · by_cases hz : ∀ j, C i j = 0
    · exact (if_pos ⟨hi, hz⟩ : L i = b).ge
    · rw [show L i = Λ i from if_neg fun h => hz h.2]
      exact (hgap i hi).resolve_left hz
  · rw [← hD]
    ext s t
    rw [Matrix.mul_apply, Matrix.mul_apply]
    refine Finset.sum_congr rfl fun i _ => ?_
    rw [Matrix.mul_diagonal, Matrix.mul_diagonal]
    rcases hLC i t with h | h <;> simp [h]
  · exact Finset.sum_congr rfl fun j _ => Finset.sum_congr rfl fun i _ => by
      rcases hLC i j with h | h <;> simp [h]

/-- `block_gap` when some coordinates vanish: the eigenvalues that belong to them do not matter. -/
theorem block_gap_deflated {C : Matrix (Fin n) (Fin k) ℝ} (hC : Cᵀ * C = 1) {Λ : Fin n → ℝ} {μ : Fin k → ℝ}
    (hD : Cᵀ * diagonal Λ * C = diagonal μ) {W : Finset (Fin n)} (hW : W.card = k) {v g a : ℝ} (hg : 0 < g)
    (ha0 : 0 ≤ a) (hv : ∀ j, μ j ≤ v) (hva : v ≤ a)
    (hgap : ∀ i, i ∉ W → (∀ j, C i j = 0) ∨ v + g ≤ Λ i) (ha : ∀ i ∈ W, |Λ i| ≤ a) :
    0 ≤ (k : ℝ) - ∑ i ∈ W, ∑ j, C i j ^ 2 ∧
    g * ((k : ℝ) - ∑ i ∈ W, ∑ j, C i j ^ 2) ≤ ∑ j, μ j - ∑ i ∈ W, Λ i ∧
    ∑ j, μ j - ∑ i ∈ W, Λ i ≤ (g + 2 * a) / g ^ 2 * ∑ j, ∑ i, (Λ i - μ j) ^ 2 * C i j ^ 2 := by
  obtain ⟨L, hLW, hLg, hD', hR⟩ := deflate hD hgap
  have h := block_gap hC hD' hW hg ha0 hv hva hLg (fun i hi => by rw [hLW i hi]; exact ha i hi)
  rwa [Finset.sum_congr rfl hLW, hR] at h

/-- Every Ritz value is bounded by the wanted eigenvalue of the same index. -/
theorem ritz_each {C : Matrix (Fin n) (Fin k) ℝ} (hC : Cᵀ * C = 1) {Λ : Fin n → ℝ} {μ : Fin k → ℝ}
    (hD : Cᵀ * diagonal Λ * C = diagonal μ) (hμ : ∀ s t, s ≤ t → μ s ≤ μ t) {w : Fin k → Fin n}
    (hΛ : ∀ s t, s ≤ t → Λ (w s) ≤ Λ (w t)) {v : ℝ} (hv : ∀ j, μ j ≤ v)
    (hgap : ∀ i, i ∉ Finset.univ.image w → (∀ j, C i j = 0) ∨ v < Λ i) (j : Fin k) : Λ (w j) ≤ μ j := by
  classical
  set F : Matrix (Fin k) (Fin k) ℝ := Matrix.of fun t s =>
    if t < j then C (w t) s else if t = j then 0 else if t = s then 1 else 0 with hF
  obtain ⟨z, hz0, hz⟩ := Matrix.exists_mulVec_eq_zero_iff.2 (Matrix.det_eq_zero_of_row_eq_zero (A := F) j
    fun s => by simp [hF])
  set y := C *ᵥ z with hy
  have hy0 : ∀ t, t < j → y (w t) = 0 := by
    intro t ht
    have := congrFun hz t
    simp only [hF, mulVec, dotProduct, of_apply, if_pos ht] at this
    exact this
  have hzj : ∀ t, j < t → z t = 0 := by
    intro t ht
    have := congrFun hz t
    simp only [hF, mulVec, dotProduct, of_apply, if_neg (not_lt.2 ht.le), if_neg ht.ne'] at this
    simpa using this
  have e1 : y ⬝ᵥ y = z ⬝ᵥ z := by
    rw [hy, mulVec_dot, mulVec_mulVec, hC, one_mulVec]
  have e2 : y ⬝ᵥ diagonal Λ *ᵥ y = z ⬝ᵥ diagonal μ *ᵥ z := by
    rw [hy, mulVec_dot, mulVec_mulVec, mulVec_mulVec, hD]
  have e3 : z ⬝ᵥ diagonal μ *ᵥ z ≤ μ j * (z ⬝ᵥ z) := by
    simp only [dotProduct, mulVec_diagonal, Finset.mul_sum]
    refine Finset.sum_le_sum fun t _ => ?_
    obtain ht | ht := le_or_gt t j
    · nlinarith [hμ t j ht, mul_self_nonneg (z t)]
    · rw [hzj t ht]; simp
  have hpos : 0 < z ⬝ᵥ z := lt_of_le_of_ne (Finset.sum_nonneg fun i _ => mul_self_nonneg _)
    fun h => hz0 (dotProduct_self_eq_zero.1 h.symm)
  by_contra hcon
  push Not at hcon
  -- the wanted eigenvalues lie below `v`
  have hwv : ∀ i, i ∉ Finset.univ.image w → y i = 0 ∨ μ j < Λ i := by
    intro i hi
    rcases hgap i hi with h | h
    · left
      simp [hy, mulVec, dotProduct, h]
    · exact .inr (lt_of_le_of_lt (hv j) h)
  have hterm : ∀ i, 0 ≤ (Λ i - μ j) * (y i * y i) ∧ ((Λ i - μ j) * (y i * y i) = 0 → y i = 0) := by
    intro i
    have hor : y i = 0 ∨ μ j < Λ i := by
      by_cases hi : i ∈ Finset.univ.image w
      · obtain ⟨t, -, rfl⟩ := Finset.mem_image.1 hi
        obtain ht | ht := lt_or_ge t j
        · exact .inl (hy0 t ht)
        · exact .inr (lt_of_lt_of_le hcon (hΛ j t ht))
      · exact hwv i hi
    rcases hor with h | h
    · exact ⟨by rw [h]; simp, fun _ => h⟩
    · refine ⟨mul_nonneg (by linarith) (mul_self_nonneg _), fun h0 => ?_⟩
      rcases mul_eq_zero.1 h0 with h1 | h1
      · linarith
      · exact mul_self_eq_zero.1 h1
  have hsum : ∑ i, (Λ i - μ j) * (y i * y i) ≤ 0 := by
    have : ∑ i, (Λ i - μ j) * (y i * y i) = y ⬝ᵥ diagonal Λ *ᵥ y - μ j * (y ⬝ᵥ y) := by
      simp only [dotProduct, mulVec_diagonal, Finset.mul_sum, ← Finset.sum_sub_distrib]
      exact Finset.sum_congr rfl fun i _ => by ring
    rw [this, e1, e2]
    linarith
  have hzero := (Finset.sum_eq_zero_iff_of_nonneg fun i _ => (hterm i).1).1
    (le_antisymm hsum (Finset.sum_nonneg fun i _ => (hterm i).1))
  have hyz : y ⬝ᵥ y = 0 := by
    simp only [dotProduct]
    exact Finset.sum_eq_zero fun i hi => by rw [(hterm i).2 (hzero i hi)]; simp
  rw [e1] at hyz
  linarith

end LinfaLinalg
