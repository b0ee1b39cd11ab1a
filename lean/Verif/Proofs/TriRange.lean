import Verif.Proofs.SolveRange
import Verif.Props.Forward

/-! # Bounds for the values inside a triangular solve -/

namespace LinfaLinalg

open Flt Matrix

/-- The rows of a triangular system solved so far do not need the other columns. -/
def Closed {n : Nat} (T : Matrix (Fin n) (Fin n) ℝ) (S : Nat → Prop) : Prop := ∀ r c : Fin n, S r → ¬ S c → T r c = 0

/-- The part of a triangular system that is solved so far is at least as well conditioned as the whole. -/
theorem tri_prefix {n : Nat} {uplo : UPLO} {A : Matrix (Fin n) (Fin n) ℝ} {c : ℝ} (hc : 0 < c) (h : SvMin (triPart uplo A) c)
    {S : Nat → Prop} [DecidablePred S] (hS : Closed (triPart uplo A) S) (y : Fin n → ℝ) (hy : ∀ i : Fin n, ¬ S i → y i = 0) :
    c * len y ≤ len fun r : Fin n => if S r then (triPart uplo A *ᵥ y) r else 0 := by
  set T := triPart uplo A with hT
  set V : Matrix (Fin n) (Fin n) ℝ := of fun i j => if S i then (if i = j then 1 else 0) else T i j with hV
  have hdet : IsUnit V.det := by
    have hd : ∀ i, V i i ≠ 0 := by
      intro i
      simp only [hV, of_apply]
      split_ifs
      · exact one_ne_zero
      · simp only [hT, triPart, of_apply]
        rw [if_pos (by cases uplo <;> simp)]
        exact triPart_diag_ne hc h i
    have hoff : ∀ r c : Fin n, ¬ InTri uplo r c → V r c = 0 := by
      intro r c hrc
      have hne : r ≠ c := by rintro rfl; exact hrc (by cases uplo <;> simp)
      simp only [hV, hT, triPart, of_apply]
      rw [if_neg hne, if_neg hrc, ite_self]
    rw [isUnit_iff_ne_zero]
    cases uplo with
    | upper =>
      rw [Matrix.det_of_isUpperTriangular fun r c hrc => hoff r c (not_le.2 hrc)]
      exact Finset.prod_ne_zero_iff.2 fun i _ => hd i
    | lower =>
      rw [Matrix.det_of_isLowerTriangular _ fun r c hrc => hoff r c (not_le.2 hrc)]
      exact Finset.prod_ne_zero_iff.2 fun i _ => hd i
  set x := V⁻¹ *ᵥ y with hx
  have e : ∀ i, (V *ᵥ x) i = y i := fun i => by rw [hx, mulVec_mulVec, mul_nonsing_inv _ hdet, one_mulVec]
  have e1 : ∀ i : Fin n, S i → x i = y i := by
    intro i hi
    rw [← e i]
    simp [mulVec, dotProduct, hV, hi]
  have e2 : ∀ i : Fin n, ¬ S i → (T *ᵥ x) i = 0 := by
    intro i hi
    rw [← hy i hi, ← e i]
    simp [mulVec, dotProduct, hV, hi]
  have e3 : T *ᵥ x = fun r : Fin n => if S r then (T *ᵥ y) r else 0 := by
    funext r
    split_ifs with hr
    · simp only [mulVec, dotProduct]
      refine Finset.sum_congr rfl fun j _ => ?_
      by_cases hj : S j
      · rw [e1 j hj]
      · rw [hS r j hr hj, zero_mul, zero_mul]
    · exact e2 r hr
  rw [← e3]
  refine le_trans (mul_le_mul_of_nonneg_left (Real.sqrt_le_sqrt (Finset.sum_le_sum fun i _ => ?_)) hc.le) (h x)
  by_cases hi : S i
  · rw [e1 i hi]
  · rw [hy i hi]
    nlinarith [sq_nonneg (x i)]

/-- The diagonal of a triangle is not smaller than its smallest singular value. -/
theorem tri_diag_ge {n : Nat} {uplo : UPLO} {A : Matrix (Fin n) (Fin n) ℝ} {c : ℝ} (hc : 0 < c) (h : SvMin (triPart uplo A) c)
    (i : Fin n) : c ≤ |A i i| := by
  have hcl : Closed (triPart uplo A) fun r => InTri uplo i r := by
    intro r k hr hk
    simp only [triPart, of_apply]
    refine if_neg fun h => hk ?_
    cases uplo <;> simp only [inTri_upper, inTri_lower] at * <;> omega
  have hp := tri_prefix hc h hcl (Pi.single i 1) (fun j hj => Pi.single_eq_of_ne (by rintro rfl; exact hj (by cases uplo <;> simp)) _)
  have e1 : len (Pi.single i (1 : ℝ) : Fin n → ℝ) = 1 := by
    unfold len
    rw [Finset.sum_eq_single i (fun j _ hj => by rw [Pi.single_eq_of_ne hj]; norm_num) (by simp)]
    simp
  have e2 : (len fun r : Fin n => if InTri uplo i r then (triPart uplo A *ᵥ Pi.single i 1) r else 0) = |A i i| := by
    unfold len
    rw [Finset.sum_eq_single i ?_ (by simp), Real.sqrt_sq_eq_abs]
    · beta_reduce
      rw [if_pos (by cases uplo <;> simp)]
      rw [mulVec_single_one]
      simp only [col_apply, triPart, of_apply]
      rw [if_pos (by cases uplo <;> simp)]
    · intro j _ hj
      have hj' : (j : Nat) ≠ i := fun e => hj (Fin.ext e)
      beta_reduce
      split_ifs with h1
      · rw [mulVec_single_one]
        simp only [col_apply, triPart, of_apply]
        rw [if_neg (by cases uplo <;> simp only [inTri_upper, inTri_lower] at * <;> omega)]
        norm_num
      · norm_num
  rw [e1, e2, mul_one] at hp
  exact hp

variable {u η : ℝ}

/-- The values inside a triangular solve. -/
theorem tri_values {g β c : ℝ} {n : Nat} {uplo : UPLO} {D : Arr2 ℝ} (hc : 0 < c) (h : SvMin (triPart uplo (toMat n n D)) c)
    (hg1 : g ≤ 1 / 100) (hgc : 2 * (g * frob (triPart uplo (toMat n n D))) ≤ c) (hβ : 0 ≤ β)
    (near : ∀ k, k ≤ n → ∀ t, Near u k t → |t - 1| ≤ g) (hinv : ∀ k, k ≤ n → ((1 - u) ^ k)⁻¹ ≤ 2) (hη : 0 ≤ η) {B : Nat → ℝ}
    (hB : ∀ r : Fin n, |B r| + η * (2 * n + |D.get r r|) * 2 ≤ β) {m : Nat} (hm : m ≤ n) {S : Nat → Prop} [DecidablePred S]
    (hS : Closed (triPart uplo (toMat n n D)) S) {y : Nat → ℝ} (inv : FltElim u η n uplo D (fun i => D.get i i) B m S y) (r : Fin n) :
    |y r| ≤ 2 * (√n * β) / c ∨ |y r| ≤ 2 * β + 4 * (frob (triPart uplo (toMat n n D)) * (2 * (√n * β) / c)) := by
  set T := triPart uplo (toMat n n D) with hT
  have hF0 := frob_nonneg T
  set z : Fin n → ℝ := fun i => if S i then y i else 0 with hz
  have hsum : ∀ (r : Fin n) (q : Nat → ℝ), ∑ c ∈ Finset.range n, (if S c then triEnt uplo D (fun i => D.get i i) r c * q c * y c else 0) =
      ∑ c : Fin n, T r c * z c * q c := by
    intro r q
    rw [Finset.sum_range]
    refine Finset.sum_congr rfl fun c _ => ?_
    have e : triEnt uplo D (fun i => D.get i i) r c = T r c := by
      unfold triEnt
      simp only [hT, triPart, of_apply, toMat_apply]
      split_ifs with h1 h2
      · rw [h1]
      · exact absurd (by rw [h1]; cases uplo <;> simp) h2
      · rfl
      · rfl
    rw [e]
    simp only [hz]
    split_ifs <;> ring
  have herr : ∀ (r : Fin n) (P : Prop) [Decidable P] (E : ℝ), |E| ≤ η * (2 * m + if P then |D.get r r| else 0) * ((1 - u) ^ m)⁻¹ →
      |E| ≤ η * (2 * n + |D.get r r|) * 2 := by
    intro r P _ E hE
    have hk' : (m : ℝ) ≤ n := by exact_mod_cast hm
    have h0 := abs_nonneg (D.get r r)
    have hif : (if P then |D.get r r| else 0) ≤ |D.get r r| := by split_ifs <;> linarith
    have hif0 : 0 ≤ (if P then |D.get r r| else 0) := by split_ifs <;> linarith
    have hkk : (0 : ℝ) ≤ m := Nat.cast_nonneg m
    refine hE.trans ?_
    calc η * (2 * m + if P then |D.get r r| else 0) * ((1 - u) ^ m)⁻¹
        ≤ η * (2 * m + if P then |D.get r r| else 0) * 2 := mul_le_mul_of_nonneg_left (hinv m hm) (by positivity)
      _ ≤ _ := by nlinarith
  -- the absolute values of a row with the vector
  have habs : ∀ r, ∑ c, |T r c * z c| ≤ (absMat T *ᵥ fun c => |z c|) r := by
    intro r
    simp only [mulVec, dotProduct, absMat, abs_mul]
    exact le_rfl
  have hlz : len (fun c => |z c|) = len z := by simp [len]
  have hfa : frob (absMat T) = frob T := by simp [frob, absMat]
  have hAz : len (absMat T *ᵥ fun c => |z c|) ≤ frob T * len z := by
    have := len_mulVec_le (absMat T) fun c => |z c|
    rwa [hlz, hfa] at this
  have hlz0 := len_nonneg z
  have g0 : 0 ≤ g := (abs_nonneg _).trans (near 0 (by omega) 1 (by simp [Near]))
  have hzle : len z ≤ 2 * (√n * β) / c := by
    have h1 := tri_prefix hc h hS z (fun i hi => if_neg hi)
    have h2 : (len fun r : Fin n => if S r then (T *ᵥ z) r else 0) ≤ len ((fun _ => β) + fun r => g * (absMat T *ᵥ fun c => |z c|) r) := by
      refine Real.sqrt_le_sqrt (Finset.sum_le_sum fun r _ => sq_le_sq.2 ?_)
      have hr0 : 0 ≤ (absMat T *ᵥ fun c => |z c|) r := (Finset.sum_nonneg fun _ _ => abs_nonneg _).trans (habs r)
      rw [Pi.add_apply, abs_of_nonneg (by positivity : 0 ≤ β + g * (absMat T *ᵥ fun c => |z c|) r)]
      beta_reduce
      split_ifs with hr
      · obtain ⟨p, q, E, -, hq, hE, e⟩ := inv r r.2
        rw [if_pos hr, zero_add, hsum] at e
        have hE' := herr r _ E hE
        have hs := sum_pert (fun c => T r c * z c) (fun c => q c) fun c => near m hm _ (hq c)
        have hs' := mul_le_mul_of_nonneg_left (habs r) g0
        have hb := hB r
        have e' : (T *ᵥ z) r = ∑ c, T r c * z c := rfl
        rw [e']
        have hbb := abs_le.1 (le_refl |B r|)
        rw [abs_le] at hE' hs ⊢
        constructor <;> linarith [hbb.1, hbb.2, hE'.1, hE'.2, hs.1, hs.2]
      · rw [abs_zero]; positivity
    have h3 : len (fun _ : Fin n => β) = √n * β := by
      unfold len
      rw [Finset.sum_const, Finset.card_univ, Fintype.card_fin, nsmul_eq_mul, Real.sqrt_mul (Nat.cast_nonneg n), Real.sqrt_sq hβ]
    have h4 : len (fun r => g * (absMat T *ᵥ fun c => |z c|) r) = g * len (absMat T *ᵥ fun c => |z c|) := by
      unfold len
      simp only [mul_pow]
      rw [← Finset.mul_sum, Real.sqrt_mul (sq_nonneg g), Real.sqrt_sq g0]
    have h5 := len_add_le (fun _ : Fin n => β) fun r => g * (absMat T *ᵥ fun c => |z c|) r
    rw [h3, h4] at h5
    have h6 := mul_le_mul_of_nonneg_left hAz g0
    have h7 := mul_le_mul_of_nonneg_right hgc hlz0
    rw [le_div_iff₀ hc]
    linarith
  by_cases hr : S r
  · left
    have h1 : z r ^ 2 ≤ ∑ r, z r ^ 2 := Finset.single_le_sum (f := fun r => z r ^ 2) (fun _ _ => sq_nonneg _) (Finset.mem_univ r)
    have h2 : |z r| ≤ len z := Real.abs_le_sqrt h1
    have h3 : z r = y r := if_pos hr
    rw [← h3]
    exact h2.trans hzle
  · right
    obtain ⟨p, q, E, hp, hq, hE, e⟩ := inv r r.2
    rw [if_neg hr, hsum] at e
    have hE' := herr r _ E hE
    have hs := sum_pert (fun c => T r c * z c) (fun c => q c) fun c => near m hm _ (hq c)
    have hcs' := Finset.abs_sum_le_sum_abs (fun c => T r c * z c) Finset.univ
    have hcs : ∑ c, |T r c * z c| ≤ frob T * (2 * (√n * β) / c) := by
      have h1 : (absMat T *ᵥ fun c => |z c|) r ≤ len (absMat T *ᵥ fun c => |z c|) :=
        (le_abs_self _).trans (Real.abs_le_sqrt (Finset.single_le_sum
          (f := fun r => (absMat T *ᵥ fun c => |z c|) r ^ 2) (fun _ _ => sq_nonneg _) (Finset.mem_univ r)))
      exact (habs r).trans (h1.trans (hAz.trans (mul_le_mul_of_nonneg_left hzle hF0)))
    have hpp := near m hm p hp
    have hp1 : 99 / 100 ≤ p := by have := (abs_le.1 hpp).1; linarith
    set X := ∑ c, |T r c * z c| with hX
    have hX0 : 0 ≤ X := Finset.sum_nonneg fun _ _ => abs_nonneg _
    have hgT : g * X ≤ 1 / 100 * X := mul_le_mul_of_nonneg_right hg1 hX0
    have hyp : |y r * p| ≤ β + 101 / 100 * X := by
      have hb := hB r
      have hbb := abs_le.1 (le_refl |B r|)
      rw [abs_le] at hE' hs hcs' ⊢
      constructor <;> linarith [hbb.1, hbb.2, hE'.1, hE'.2, hs.1, hs.2, hcs'.1, hcs'.2]
    rw [abs_mul, abs_of_pos (by linarith : 0 < p)] at hyp
    have := mul_le_mul_of_nonneg_left hp1 (abs_nonneg (y r))
    linarith

end LinfaLinalg
