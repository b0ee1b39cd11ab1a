import Verif.Proofs.LowRank
import Verif.Props.TruncatedAccuracy
import Verif.Props.Sort

/-! # C134: approximation by a matrix of low rank

The reason to compute singular vectors in most applications of this crate: the leading triples give a matrix of low rank
next to the given one. -/

namespace LinfaLinalg

open Matrix

/-- The sum of the first `k` triples `s_j u_j v_jᵀ`. -/
noncomputable def leading {m n r : Nat} (k : Nat) (U : Matrix (Fin m) (Fin r) ℝ) (s : Fin r → ℝ)
    (V : Matrix (Fin r) (Fin n) ℝ) : Matrix (Fin m) (Fin n) ℝ :=
  fun i l => ∑ j : Fin r, if (j : Nat) < k then s j * U i j * V j l else 0

theorem leading_eq {m n r : Nat} (k : Nat) (U : Matrix (Fin m) (Fin r) ℝ) (s : Fin r → ℝ) (V : Matrix (Fin r) (Fin n) ℝ) :
    leading k U s V = U * diagonal (fun j : Fin r => if (j : Nat) < k then s j else 0) * V := by
  ext i l
  rw [leading, mul_apply]
  refine Finset.sum_congr rfl fun j _ => ?_
  rw [mul_diagonal]
  split_ifs <;> ring

theorem leading_rank {m n r : Nat} (k : Nat) (U : Matrix (Fin m) (Fin r) ℝ) (s : Fin r → ℝ) (V : Matrix (Fin r) (Fin n) ℝ) :
    (leading k U s V).rank ≤ k := by
  rw [leading_eq]
  refine (rank_mul_le_left _ _).trans ((rank_mul_le_right _ _).trans ?_)
  rw [rank_diagonal, Fintype.card_subtype]
  refine (Finset.card_le_card (t := Finset.univ.filter fun j : Fin r => (j : Nat) < k) fun j hj => ?_).trans ?_
  · simp only [Finset.mem_filter, Finset.mem_univ, true_and] at hj ⊢
    by_contra h
    exact hj (if_neg h)
  · refine (Finset.card_le_card_of_injOn (t := Finset.range k) (fun j : Fin r => (j : Nat)) (fun j hj => ?_)
      fun a _ b _ h => Fin.ext h).trans (Finset.card_range k).le
    simpa using hj

theorem frob_diag_orth {m n r : Nat} {U : Matrix (Fin m) (Fin r) ℝ} {V : Matrix (Fin r) (Fin n) ℝ} (hU : Uᵀ * U = 1)
    (hV : V * Vᵀ = 1) (d : Fin r → ℝ) : frob (U * diagonal d * V) ^ 2 = ∑ j, d j ^ 2 := by
  rw [frob_mul_orth hV, frob_orth_mul hU, frob_sq]
  refine Finset.sum_congr rfl fun j _ => ?_
  rw [Finset.sum_eq_single j (fun l _ hl => by rw [diagonal_apply_ne _ hl.symm]; norm_num) (by simp), diagonal_apply_eq]

/-- The leading triples of an exact decomposition are best. -/
theorem leading_best {m n r : Nat} {U : Matrix (Fin m) (Fin r) ℝ} {V : Matrix (Fin r) (Fin n) ℝ} (hU : Uᵀ * U = 1)
    (hV : V * Vᵀ = 1) {s : Fin r → ℝ} (hs : Antitone s) (hs0 : ∀ j, 0 ≤ s j) (k : Nat) (X : Matrix (Fin m) (Fin n) ℝ)
    (hX : X.rank ≤ k) : frob (U * diagonal s * V - leading k U s V) ≤ frob (U * diagonal s * V - X) := by
  have e1 : U * diagonal s * V - leading k U s V =
      U * diagonal (fun j : Fin r => if (j : Nat) < k then 0 else s j) * V := by
    rw [leading_eq, ← Matrix.sub_mul, ← Matrix.mul_sub, diagonal_sub]
    congr 3
    funext j
    split_ifs <;> simp
  refine abs_le_of_sq_le_sq' ?_ (frob_nonneg _) |>.2
  rw [e1, frob_diag_orth hU hV]
  rcases Nat.lt_or_ge k r with hk | hk
  · have hB : (U * diagonal s * V)ᵀ * (U * diagonal s * V) = Vᵀ * diagonal (fun j => s j ^ 2) * V := by
      calc (U * diagonal s * V)ᵀ * (U * diagonal s * V) = Vᵀ * diagonal s * (Uᵀ * U) * diagonal s * V := by
            simp only [transpose_mul, diagonal_transpose, Matrix.mul_assoc]
        _ = Vᵀ * (diagonal s * diagonal s) * V := by rw [hU, Matrix.mul_one, Matrix.mul_assoc Vᵀ]
        _ = _ := by rw [diagonal_mul_diagonal]; simp only [sq]
    have hT : (Finset.univ.filter fun j : Fin r => (j : Nat) < k).card = k := by
      rw [Fin.card_filter_val_lt]; omega
    have := eckart_young (X := X) hV hB (T := Finset.univ.filter fun j : Fin r => (j : Nat) < k) (τ := s ⟨k, hk⟩ ^ 2)
      (sq_nonneg _) (fun i hi => pow_le_pow_left₀ (hs0 _) (hs (by
        simp only [Finset.mem_filter, Finset.mem_univ, true_and] at hi
        exact hi.le)) 2) (fun i hi => pow_le_pow_left₀ (hs0 _) (hs (by
        simp only [Finset.mem_filter, Finset.mem_univ, true_and, not_lt] at hi
        exact hi)) 2) (by rw [hT]; exact hX)
    rw [frob_diag_orth hU hV, Finset.sum_filter, ← Finset.sum_sub_distrib] at this
    refine le_trans (le_of_eq (Finset.sum_congr rfl fun j _ => ?_)) this
    split_ifs <;> simp
  · rw [Finset.sum_eq_zero fun j _ => by rw [if_pos (by have := j.2; omega)]; norm_num]
    exact sq_nonneg _

/-- **C134**: `svd` followed by `sort_svd_desc`. The sum of the first `k` triples has rank at most `k`, and no matrix of
rank at most `k` is closer to the given matrix, up to twice the error of `svd`. Exact arithmetic; every matrix and `k`. -/
theorem C134_svd {m n : Nat} (fuel : Nat) (a U V : Arr2 ℝ) (s : Arr1 ℝ) (ha : HasShape a m n)
    (h : svd fuel a true true = .ok (some U, s, some V)) :
    ∃ U' s' V', sortSvd (some U) s (some V) .largest = .ok (some U', s', some V') ∧ HasShape U' m (min m n) ∧
      s'.len = min m n ∧ HasShape V' (min m n) n ∧ ∀ k,
      (leading k (toMat m (min m n) U') (toVec (min m n) s') (toMat (min m n) n V')).rank ≤ k ∧
      ∀ X : Matrix (Fin m) (Fin n) ℝ, X.rank ≤ k →
        frob (toMat m n a - leading k (toMat m (min m n) U') (toVec (min m n) s') (toMat (min m n) n V')) ≤
          frob (toMat m n a - X) + 2 * (2 * (min m n - 1 : Nat) * (5 * (2 : ℝ)⁻¹ ^ 52) * frob (toMat m n a)) := by
  have hne : m ≠ 0 ∧ n ≠ 0 := by
    by_contra hz
    have : svd fuel a true true = throwErr .emptyMatrix := by
      unfold svd svdGo
      rw [if_pos (by rw [ha.1, ha.2]; omega)]
    rw [this] at h
    exact absurd h (by simp [throwErr])
  have h1 := C35_svd_residual fuel a U V s ha h
  obtain ⟨U0, V0, e1, e2, sU, sV, sl, o1, o2, hs0⟩ := (C34_svd_orthonormal fuel a ha hne.1 hne.2).2 _ _ _ h
  cases e1; cases e2
  obtain ⟨U', s', V', g1, g2, g3, g4, g5, g6, g7, g8⟩ := C40_sort_svd_product m n (min m n) U s V sU sl sV .largest
  obtain ⟨_, s2, _, σ, q1, -, -, q2, -⟩ := C40_sort_svd (some U) s (some V) (fun a ha => by cases ha; exact sU.2.trans sl.symm)
    (fun a ha => by cases ha; exact sV.1.trans sl.symm) (NaNFree.real s) .largest
  rw [g1] at q1
  obtain ⟨-, rfl, -⟩ : some U' = _ ∧ s' = s2 ∧ some V' = _ := by
    injection q1 with q1
    simpa using q1
  have hs0' : ∀ j, 0 ≤ toVec (min m n) s' j := fun j => by
    have := q2 ⟨j, by rw [sl]; exact j.2⟩
    change 0 ≤ s'.get j
    rw [this]
    exact hs0 _ (lt_of_lt_of_eq (σ _).2 sl)
  refine ⟨U', s', V', g1, g2, g3, g4, fun k => ⟨leading_rank _ _ _ _, fun X hX => ?_⟩⟩
  have hb := leading_best (g6 o1) (g7 o2) g8 hs0' k X hX
  rw [g5] at hb
  rw [← g5] at h1
  have t1 := frob_sub_le (toMat m n a) (toMat m (min m n) U * diagonal (toVec (min m n) s) * toMat (min m n) n V)
    (leading k (toMat m (min m n) U') (toVec (min m n) s') (toMat (min m n) n V'))
  have t2 := frob_sub_le (toMat m (min m n) U * diagonal (toVec (min m n) s) * toMat (min m n) n V) (toMat m n a) X
  have t3 : frob (toMat m (min m n) U * diagonal (toVec (min m n) s) * toMat (min m n) n V - toMat m n a) =
      frob (toMat m n a - toMat m (min m n) U * diagonal (toVec (min m n) s) * toMat (min m n) n V) := by
    rw [← frob_neg, neg_sub]
  rw [g5] at h1
  linarith

/-- A Ritz decomposition is a projection of the matrix, and the values tell how much is missing. -/
theorem RitzTriples.defect [MagnitudeCorrection ℝ] {order : Order} {p q r num : Nat} {B : Matrix (Fin p) (Fin q) ℝ}
    {U : Matrix (Fin p) (Fin r) ℝ} {s : Nat → ℝ} {V : Matrix (Fin q) (Fin r) ℝ} {b : Nat → ℝ}
    (h : RitzTriples order num B U s V b) :
    frob (B - U * diagonal (fun j : Fin r => s j) * Vᵀ) ^ 2 = frob B ^ 2 - ∑ j : Fin r, s j ^ 2 := by
  have p1 : (V * Vᵀ)ᵀ = V * Vᵀ := by rw [transpose_mul, transpose_transpose]
  have p2 : V * Vᵀ * (V * Vᵀ) = V * Vᵀ := by
    rw [Matrix.mul_assoc, ← Matrix.mul_assoc Vᵀ, h.orth_v, Matrix.one_mul]
  have e1 : U * diagonal (fun j : Fin r => s j) * Vᵀ = B * (V * Vᵀ) := by rw [← h.exact_side, Matrix.mul_assoc]
  have e2 : B - B * (V * Vᵀ) = B * (1 - V * Vᵀ) := by rw [Matrix.mul_sub, Matrix.mul_one]
  rw [e1, e2, frob_sq_split _ p1 p2, ← e1, frob_diag_orth h.orth_u (by rw [transpose_transpose]; exact h.orth_v)]

/-- What is missing, compared with the best matrix of that rank. -/
theorem RitzTriples.best [MagnitudeCorrection ℝ] {p q r num : Nat} {B : Matrix (Fin p) (Fin q) ℝ}
    {U : Matrix (Fin p) (Fin r) ℝ} {s : Nat → ℝ} {V : Matrix (Fin q) (Fin r) ℝ} {b : Nat → ℝ}
    (h : RitzTriples .largest num B U s V b) {Q : Matrix (Fin q) (Fin q) ℝ} {σ : Fin q → ℝ} {a g E : ℝ}
    {w : Fin num → Fin q} (hS : Separated .largest B Q σ a w b g) (hr : r ≤ num)
    (hE : ∀ j : Fin r, CloseFrom .largest E (σ (w (Fin.castLE hr j))) (s j)) (X : Matrix (Fin p) (Fin q) ℝ)
    (hX : X.rank ≤ r) :
    frob (B - U * diagonal (fun j : Fin r => s j) * Vᵀ) ^ 2 ≤ frob (B - X) ^ 2 + r * E := by
  rw [h.defect]
  have hclose : ∀ j : Fin r, σ (w (Fin.castLE hr j)) ^ 2 - s j ^ 2 ≤ E := fun j => by
    obtain ⟨h1, h2⟩ := hE j
    have h3 := (h.value j j.2).1
    have h4 := hS.nonneg (w (Fin.castLE hr j))
    have h5 : 0 < s j + σ (w (Fin.castLE hr j)) := by linarith
    rw [le_div_iff₀ h5] at h2
    have h6 := neg_abs_le (s j - σ (w (Fin.castLE hr j)))
    nlinarith
  have hinj : Function.Injective fun j : Fin r => w (Fin.castLE hr j) :=
    hS.inj.comp (Fin.castLE_injective hr)
  have hkey : frob B ^ 2 - ∑ j : Fin r, σ (w (Fin.castLE hr j)) ^ 2 ≤ frob (B - X) ^ 2 := by
    rcases Nat.eq_zero_or_pos r with rfl | hr0
    · have hX0 : X = 0 := by
        obtain ⟨P, p1, p2, p3, p4⟩ := exists_proj X
        rw [Nat.le_zero.1 hX, Nat.cast_zero] at p4
        have h0 : frob P ^ 2 = 0 := by rw [frob_sq_trace, p1, p2, p4]
        rw [← p3, frob_eq_zero (pow_eq_zero_iff two_ne_zero |>.1 h0), Matrix.mul_zero]
      simp [hX0]
    · let last : Fin r := ⟨r - 1, by omega⟩
      have hQ' : Qᵀ * Qᵀᵀ = 1 := by rw [transpose_transpose]; exact hS.orth
      have := eckart_young (X := X) (V := Qᵀ) hQ' (by rw [transpose_transpose]; exact hS.gram)
        (T := Finset.univ.image fun j : Fin r => w (Fin.castLE hr j)) (τ := σ (w (Fin.castLE hr last)) ^ 2) (sq_nonneg _)
        (fun i hi => by
          obtain ⟨j, -, rfl⟩ := Finset.mem_image.1 hi
          exact pow_le_pow_left₀ (hS.nonneg _) (hS.ordered (Fin.castLE hr j) (Fin.castLE hr last) (by
            rw [Fin.le_def]
            have := j.2
            simp only [last, Fin.val_castLE]
            omega)) 2)
        (fun i hi => by
          by_cases hn : ∃ j, i = w j
          · obtain ⟨j, rfl⟩ := hn
            have hj : r ≤ j := by
              by_contra hlt
              exact hi (Finset.mem_image.2 ⟨⟨j, by omega⟩, Finset.mem_univ _, rfl⟩)
            exact pow_le_pow_left₀ (hS.nonneg _) (hS.ordered (Fin.castLE hr last) j (by
              rw [Fin.le_def]
              simp only [last, Fin.val_castLE]
              omega)) 2
          · push Not at hn
            have h1 : σ i ^ 2 ≤ b (Fin.castLE hr last) - g := hS.beyond i hn (Fin.castLE hr last)
            have h2 := (h.value last last.2).2
            have h3 : s last ≤ σ (w (Fin.castLE hr last)) := (hE last).1
            have h4 := pow_le_pow_left₀ (h.value last last.2).1.le h3 2
            have h5 := hS.gap
            rw [Fin.val_castLE] at h1
            linarith)
        (by rw [Finset.card_image_of_injective _ hinj, Finset.card_univ, Fintype.card_fin]; exact hX)
      rwa [Finset.sum_image fun x _ y _ hxy => hinj hxy] at this
  have hsum : ∑ j : Fin r, σ (w (Fin.castLE hr j)) ^ 2 - ∑ j : Fin r, s j ^ 2 ≤ r * E := by
    rw [← Finset.sum_sub_distrib]
    refine (Finset.sum_le_sum fun j _ => hclose j).trans (le_of_eq ?_)
    simp
  linarith

section
variable [MagnitudeCorrection ℝ]

/-- **C134** for `TruncatedSvd`, more rows than columns. The matrix made of the returned triples misses the given one by
exactly the square sum that is missing in the values, converged or not (assumptions of C74). If the largest values are
separated as in C126, no matrix of that rank is closer, up to the residual norms squared. -/
theorem C134_tall (hc : 0 < (NdFloat.epsilon : ℝ) * MagnitudeCorrection.correction)
    (hc1 : (NdFloat.epsilon : ℝ) * MagnitudeCorrection.correction < 1) {ρ : Type} {n m num : Nat}
    {eig : EigSolver ℝ} (he : EigWithin 0 eig) (R : RandomSource ℝ ρ) (t : TruncatedSvd ℝ ρ)
    (hp : HasShape t.problem n m) (hnm : n > m) (hnum : 1 ≤ num) (res : LobpcgResult ℝ) (hist : List (Iterate ℝ))
    (h : lobpcgRun eig t.params (R.random m num t.rng).1 t.maxiter = .ok (res, hist))
    (hcond : ∀ it ∈ hist, ∀ C, it.gram = some C → WellConditioned condFloor C) (b : Lobpcg ℝ) (hb : Returned res b)
    (hrank : t.order = .smallest → ∀ x, (toMat n m t.problem).mulVec x = 0 → x = 0) :
    ∃ out u s vt, t.decompose eig R num = .ok out ∧ out.valuesVectors = .ok (u, s, vt) ∧
      frob (toMat n m t.problem - toMat n s.len u * diagonal (toVec s.len s) * toMat s.len m vt) ^ 2 =
        frob (toMat n m t.problem) ^ 2 - ∑ j : Fin s.len, s.get j ^ 2 ∧
      (t.order = .largest → ∀ (Q : Matrix (Fin m) (Fin m) ℝ) (σ : Fin m → ℝ) (a g : ℝ) (w : Fin num → Fin m),
        Separated .largest (toMat n m t.problem) Q σ a w b.eigvals.get g → ∀ r : Fin num → ℝ,
        (∀ j : Fin num, b.rnorm[j.val]? = some (r j)) → ∀ X : Matrix (Fin n) (Fin m) ℝ, X.rank ≤ s.len →
        frob (toMat n m t.problem - toMat n s.len u * diagonal (toVec s.len s) * toMat s.len m vt) ^ 2 ≤
          frob (toMat n m t.problem - X) ^ 2 + s.len * ((g + 2 * a ^ 2) / g ^ 2 * ∑ i, r i ^ 2)) := by
  obtain ⟨out, k, u, s, vt, h1, h2, -, rfl, -, -, h4⟩ := C74_tall hc hc1 he R t hp hnm hnum res hist h hcond b hb hrank
  have hdef := h4.defect
  rw [transpose_transpose] at hdef
  refine ⟨out, u, s, vt, h1, h2, hdef, fun ho Q σ a g w hS r hr X hX => ?_⟩
  have hk := (h4.count_largest ho).1
  have h5 := h4
  rw [ho] at h5
  have := h5.best hS hk (fun j => by
    have := values_close (k := num) he (t.isOperator_tall hp hnm) rfl hnum (x0 := (R.random m num t.rng).1) ⟨rfl, rfl⟩ h
      hcond hb (by rw [show t.params.order = .largest from ho]; exact hS) hr hk h4.value j
    rwa [show t.params.order = .largest from ho] at this) X hX
  rwa [transpose_transpose] at this

/-- **C134** for `TruncatedSvd`, no more rows than columns. -/
theorem C134_wide (hc : 0 < (NdFloat.epsilon : ℝ) * MagnitudeCorrection.correction)
    (hc1 : (NdFloat.epsilon : ℝ) * MagnitudeCorrection.correction < 1) {ρ : Type} {n m num : Nat}
    {eig : EigSolver ℝ} (he : EigWithin 0 eig) (R : RandomSource ℝ ρ) (t : TruncatedSvd ℝ ρ)
    (hp : HasShape t.problem n m) (hnm : n ≤ m) (hnum : 1 ≤ num) (res : LobpcgResult ℝ) (hist : List (Iterate ℝ))
    (h : lobpcgRun eig t.params (R.random n num t.rng).1 t.maxiter = .ok (res, hist))
    (hcond : ∀ it ∈ hist, ∀ C, it.gram = some C → WellConditioned condFloor C) (b : Lobpcg ℝ) (hb : Returned res b)
    (hrank : t.order = .smallest → ∀ x, (toMat n m t.problem)ᵀ.mulVec x = 0 → x = 0) :
    ∃ out u s vt, t.decompose eig R num = .ok out ∧ out.valuesVectors = .ok (u, s, vt) ∧
      frob (toMat n m t.problem - toMat n s.len u * diagonal (toVec s.len s) * toMat s.len m vt) ^ 2 =
        frob (toMat n m t.problem) ^ 2 - ∑ j : Fin s.len, s.get j ^ 2 ∧
      (t.order = .largest → ∀ (Q : Matrix (Fin n) (Fin n) ℝ) (σ : Fin n → ℝ) (a g : ℝ) (w : Fin num → Fin n),
        Separated .largest (toMat n m t.problem)ᵀ Q σ a w b.eigvals.get g → ∀ r : Fin num → ℝ,
        (∀ j : Fin num, b.rnorm[j.val]? = some (r j)) → ∀ X : Matrix (Fin n) (Fin m) ℝ, X.rank ≤ s.len →
        frob (toMat n m t.problem - toMat n s.len u * diagonal (toVec s.len s) * toMat s.len m vt) ^ 2 ≤
          frob (toMat n m t.problem - X) ^ 2 + s.len * ((g + 2 * a ^ 2) / g ^ 2 * ∑ i, r i ^ 2)) := by
  obtain ⟨out, k, u, s, vt, h1, h2, -, rfl, -, -, h4⟩ := C74_wide hc hc1 he R t hp hnm hnum res hist h hcond b hb hrank
  have et : (toMat n m t.problem)ᵀ - (toMat s.len m vt)ᵀ * diagonal (fun j : Fin s.len => s.get j) * (toMat n s.len u)ᵀ =
      (toMat n m t.problem - toMat n s.len u * diagonal (toVec s.len s) * toMat s.len m vt)ᵀ := by
    simp only [transpose_sub, transpose_mul, diagonal_transpose, Matrix.mul_assoc]
    rfl
  have hdef := h4.defect
  rw [et, frob_transpose, frob_transpose] at hdef
  refine ⟨out, u, s, vt, h1, h2, hdef, fun ho Q σ a g w hS r hr X hX => ?_⟩
  have hk := (h4.count_largest ho).1
  have h5 := h4
  rw [ho] at h5
  have hA : IsOperator ((toMat n m t.problem)ᵀᵀ * (toMat n m t.problem)ᵀ) t.params := by
    rw [transpose_transpose]
    exact t.isOperator_wide hp hnm
  have := h5.best hS hk (fun j => by
    have := values_close (k := num) he hA rfl hnum (x0 := (R.random n num t.rng).1) ⟨rfl, rfl⟩ h
      hcond hb (by rw [show t.params.order = .largest from ho]; exact hS) hr hk h4.value j
    rwa [show t.params.order = .largest from ho] at this) Xᵀ (by rwa [rank_transpose])
  rwa [et, frob_transpose, ← transpose_sub, frob_transpose] at this

end

/-! ## Examples -/

/-- `svd` returns on `[[1, 2, 3], [4, 5, 6]]`, so that C134 compares its first triple with all matrices of rank one. -/
example : ∃ U s V, svd (svdFuel 2 3) (ofRows 2 3 [[1, 2, 3], [4, 5, 6]]) true true = .ok (some U, s, some V) := by
  obtain ⟨U, s, V, h, -⟩ := C73_svd_total (m := 2) (n := 3) (ofRows 2 3 [[1, 2, 3], [4, 5, 6]]) ⟨rfl, rfl⟩ (by simp)
    (by simp)
  exact ⟨U, s, V, h⟩

/-- No matrix of rank one is closer than `1` to `diag(2, 1)`, and the first triple is at that distance. -/
example : frob (diagonal ![2, 1] - leading 1 1 ![2, 1] (1 : Matrix (Fin 2) (Fin 2) ℝ)) = 1 ∧
    ∀ X : Matrix (Fin 2) (Fin 2) ℝ, X.rank ≤ 1 → 1 ≤ frob (diagonal ![2, 1] - X) := by
  have h1 : frob (diagonal ![2, 1] - leading 1 1 ![2, 1] (1 : Matrix (Fin 2) (Fin 2) ℝ)) = 1 := by
    rw [leading_eq, Matrix.one_mul, Matrix.mul_one, diagonal_sub, frob]
    simp [Fin.sum_univ_two, diagonal_apply]
  refine ⟨h1, fun X hX => ?_⟩
  have := leading_best (U := (1 : Matrix (Fin 2) (Fin 2) ℝ)) (V := (1 : Matrix (Fin 2) (Fin 2) ℝ)) (by simp) (by simp)
    (s := ![2, 1]) (by
      intro i j hij
      fin_cases i <;> fin_cases j <;> simp at hij ⊢) (by intro j; fin_cases j <;> simp) 1 X hX
  rw [Matrix.one_mul, Matrix.mul_one, h1] at this
  exact this

/-- The run `tall_run` meets the hypotheses of `C134_tall`; the example beside C126 shows that its spectrum is
`Separated`. -/
example : letI : MagnitudeCorrection ℝ := ⟨1000⟩
    ∃ out u s vt, (tallProblem .largest).decompose exactEig ⟨fun _ _ s => (fun _ _ => 1, s)⟩ 1 = .ok out ∧
      out.valuesVectors = .ok (u, s, vt) ∧
      frob (toMat 3 2 (ofRows 3 2 [[1, 0], [0, 2], [0, 0]]) - toMat 3 s.len u * diagonal (toVec s.len s) *
        toMat s.len 2 vt) ^ 2 = 5 - ∑ j : Fin s.len, s.get j ^ 2 := by
  let _ : MagnitudeCorrection ℝ := ⟨1000⟩
  obtain ⟨b, hist, h, hc, hrank⟩ := tall_run .largest
  obtain ⟨out, u, s, vt, h1, h2, h3, -⟩ := C134_tall (n := 3) (m := 2) (by
    show (0 : ℝ) < (2 : ℝ)⁻¹ ^ 52 * 1000
    positivity) (by
    show (2 : ℝ)⁻¹ ^ 52 * 1000 < 1
    norm_num) exactEig_within ⟨fun _ _ s => (fun _ _ => 1, s)⟩ (tallProblem .largest) ⟨rfl, rfl⟩ (by norm_num) le_rfl
    (.ok b) hist h hc b (.inl rfl) (fun _ => hrank)
  refine ⟨out, u, s, vt, h1, h2, h3.trans ?_⟩
  congr 1
  rw [frob_sq]
  simp [Fin.sum_univ_three, Fin.sum_univ_two, tallProblem, ofRows]
  norm_num

end LinfaLinalg
