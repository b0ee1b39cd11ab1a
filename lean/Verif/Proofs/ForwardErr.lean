import Verif.Spec.Forward
import Verif.Proofs.RoundedOrth

/-! # Perturbation of linear systems, least squares problems and solutions of least length -/

namespace LinfaLinalg

open Matrix

variable {m n : Nat}

theorem len_nonneg (x : Fin n → ℝ) : 0 ≤ len x := Real.sqrt_nonneg _

theorem len_sq (x : Fin n → ℝ) : len x ^ 2 = x ⬝ᵥ x := by
  unfold len
  rw [Real.sq_sqrt (Finset.sum_nonneg fun i _ => sq_nonneg _)]
  exact Finset.sum_congr rfl fun i _ => sq _

theorem len_eq_norm (x : Fin n → ℝ) : len x = ‖(WithLp.toLp 2 x : EuclideanSpace ℝ (Fin n))‖ := by
  rw [EuclideanSpace.norm_eq]
  simp [len]

theorem len_add_le (x y : Fin n → ℝ) : len (x + y) ≤ len x + len y := by
  simp only [len_eq_norm, WithLp.toLp_add]
  exact norm_add_le _ _

theorem len_neg (x : Fin n → ℝ) : len (-x) = len x := by simp [len]

theorem len_sub_le (x y : Fin n → ℝ) : len (x - y) ≤ len x + len y := by
  rw [sub_eq_add_neg, ← len_neg y]
  exact len_add_le _ _

theorem len_eq_zero {x : Fin n → ℝ} (h : len x = 0) : x = 0 := by
  have := len_sq x
  rw [h] at this
  exact dotProduct_self_eq_zero.1 (by linarith)

theorem abs_dot_le_len (x y : Fin n → ℝ) : |x ⬝ᵥ y| ≤ len x * len y := by
  rw [← Real.sqrt_sq (mul_nonneg (len_nonneg x) (len_nonneg y)), ← Real.sqrt_sq_eq_abs]
  refine Real.sqrt_le_sqrt ?_
  rw [mul_pow, len_sq, len_sq]
  have := Finset.sum_mul_sq_le_sq_mul_sq Finset.univ x y
  simpa [dotProduct, sq] using this

theorem len_mulVec_le (A : Matrix (Fin m) (Fin n) ℝ) (x : Fin n → ℝ) : len (A *ᵥ x) ≤ frob A * len x := by
  rw [← Real.sqrt_sq (mul_nonneg (frob_nonneg A) (len_nonneg x))]
  refine Real.sqrt_le_sqrt ?_
  rw [mul_pow, frob_sq, len, Real.sq_sqrt (Finset.sum_nonneg fun i _ => sq_nonneg _), Finset.sum_mul]
  refine Finset.sum_le_sum fun r _ => ?_
  exact Finset.sum_mul_sq_le_sq_mul_sq Finset.univ (fun j => A r j) x

theorem mulVec_dot (M : Matrix (Fin m) (Fin n) ℝ) (d : Fin n → ℝ) (v : Fin m → ℝ) : M *ᵥ d ⬝ᵥ v = d ⬝ᵥ Mᵀ *ᵥ v := by
  rw [← Matrix.vecMul_transpose, ← Matrix.dotProduct_mulVec]

theorem SvMin.perturb {A E : Matrix (Fin m) (Fin n) ℝ} {c e : ℝ} (h : SvMin A c) (hE : frob E ≤ e) : SvMin (A + E) (c - e) := by
  intro x
  have h1 := h x
  have h2 := len_sub_le ((A + E) *ᵥ x) (E *ᵥ x)
  rw [← Matrix.sub_mulVec, add_sub_cancel_right] at h2
  have h3 := (len_mulVec_le E x).trans (mul_le_mul_of_nonneg_right hE (len_nonneg x))
  linarith

theorem SvMin.inj {A : Matrix (Fin m) (Fin n) ℝ} {c : ℝ} (h : SvMin A c) (hc : 0 < c) {x : Fin n → ℝ} (hx : A *ᵥ x = 0) :
    x = 0 := by
  have h1 := h x
  rw [hx] at h1
  have : len (0 : Fin m → ℝ) = 0 := by simp [len]
  rw [this] at h1
  refine len_eq_zero (le_antisymm ?_ (len_nonneg x))
  by_contra h2
  push Not at h2
  linarith [mul_pos hc h2]

/-- Perturbation of a linear system. -/
theorem fwd_square {A E : Matrix (Fin n) (Fin n) ℝ} {x x' f b : Fin n → ℝ} {c e : ℝ} (hc : 0 < c) (hA : SvMin A c)
    (hE : frob E ≤ e) (he : 2 * e ≤ c) (h : A *ᵥ x = b) (h' : (A + E) *ᵥ x' = b + f) :
    len (x' - x) ≤ 2 / c * (e * len x + len f) := by
  have h1 := (hA.perturb hE) (x' - x)
  have e1 : (A + E) *ᵥ (x' - x) = f - E *ᵥ x := by
    rw [Matrix.mulVec_sub, h', Matrix.add_mulVec, h]; abel
  rw [e1] at h1
  have h2 := len_sub_le f (E *ᵥ x)
  have h3 := (len_mulVec_le E x).trans (mul_le_mul_of_nonneg_right hE (len_nonneg x))
  have h4 : c / 2 * len (x' - x) ≤ (c - e) * len (x' - x) := mul_le_mul_of_nonneg_right (by linarith) (len_nonneg _)
  rw [div_mul_eq_mul_div, le_div_iff₀ hc]
  linarith

/-- A least squares solution satisfies the normal equations. -/
theorem IsLsq.normal {A : Matrix (Fin m) (Fin n) ℝ} {b : Fin m → ℝ} {x : Fin n → ℝ} (h : IsLsq A b x) :
    Aᵀ *ᵥ (b - A *ᵥ x) = 0 := by
  set g := Aᵀ *ᵥ (b - A *ᵥ x) with hg
  -- step along the gradient
  have key : ∀ t : ℝ, 0 ≤ t ^ 2 * (A *ᵥ g ⬝ᵥ A *ᵥ g) - 2 * t * (g ⬝ᵥ g) := fun t => by
    have h1 := h (x + t • g)
    have h2 : len (A *ᵥ x - b) ^ 2 ≤ len (A *ᵥ (x + t • g) - b) ^ 2 :=
      pow_le_pow_left₀ (len_nonneg _) h1 2
    rw [len_sq, len_sq, Matrix.mulVec_add, Matrix.mulVec_smul] at h2
    have e1 : A *ᵥ g ⬝ᵥ (A *ᵥ x - b) = -(g ⬝ᵥ g) := by
      have : A *ᵥ x - b = -(b - A *ᵥ x) := by abel
      rw [this, dotProduct_neg, ← Matrix.vecMul_transpose, ← Matrix.dotProduct_mulVec, ← hg]
    have e2 : A *ᵥ x + t • A *ᵥ g - b = (A *ᵥ x - b) + t • A *ᵥ g := by abel
    rw [e2, add_dotProduct, dotProduct_add, dotProduct_add, smul_dotProduct, smul_dotProduct, dotProduct_smul, dotProduct_smul,
      dotProduct_comm (A *ᵥ x - b) (A *ᵥ g), e1] at h2
    simp only [smul_eq_mul] at h2
    linarith
  have hgg : 0 ≤ g ⬝ᵥ g := by rw [← len_sq]; positivity
  have haa : 0 ≤ A *ᵥ g ⬝ᵥ A *ᵥ g := by rw [← len_sq]; positivity
  refine dotProduct_self_eq_zero.1 (le_antisymm ?_ hgg)
  by_contra hne
  push Not at hne
  have := key ((g ⬝ᵥ g) / (A *ᵥ g ⬝ᵥ A *ᵥ g + 1))
  set p := g ⬝ᵥ g
  set q := A *ᵥ g ⬝ᵥ A *ᵥ g
  have hq1 : 0 < q + 1 := by linarith
  have e : (p / (q + 1)) ^ 2 * q - 2 * (p / (q + 1)) * p = -(p ^ 2 * (q + 2)) / (q + 1) ^ 2 := by
    field_simp; ring
  rw [e] at this
  have : -(p ^ 2 * (q + 2)) / (q + 1) ^ 2 < 0 := div_neg_of_neg_of_pos (by
    have : 0 < p ^ 2 * (q + 2) := by positivity
    linarith) (by positivity)
  linarith

/-- Perturbation of a least squares problem. -/
theorem fwd_lsq {A E : Matrix (Fin m) (Fin n) ℝ} {x x' : Fin n → ℝ} {f b : Fin m → ℝ} {c e : ℝ} (hc : 0 < c) (hA : SvMin A c)
    (hE : frob E ≤ e) (he : 2 * e ≤ c) (h : IsLsq A b x) (h' : IsLsq (A + E) (b + f) x') :
    len (x' - x) ≤ 2 / c * (e * len x + len f) + 4 * e / c ^ 2 * len (b - A *ᵥ x) := by
  set d := x' - x with hd
  set M := A + E with hM
  set r := b - A *ᵥ x with hr
  have n1 := h.normal
  have n2 := h'.normal
  have e1 : M *ᵥ d = (r + f - E *ᵥ x) - (b + f - M *ᵥ x') := by
    rw [hd, Matrix.mulVec_sub, hr, hM, Matrix.add_mulVec A E x]; abel
  have e2 : M *ᵥ d ⬝ᵥ M *ᵥ d = d ⬝ᵥ Eᵀ *ᵥ r + M *ᵥ d ⬝ᵥ (f - E *ᵥ x) := by
    have a1 : M *ᵥ d ⬝ᵥ (b + f - M *ᵥ x') = 0 := by
      rw [← Matrix.vecMul_transpose, ← Matrix.dotProduct_mulVec, n2, dotProduct_zero]
    have a2 : M *ᵥ d ⬝ᵥ r = d ⬝ᵥ Eᵀ *ᵥ r := by
      rw [← Matrix.vecMul_transpose, ← Matrix.dotProduct_mulVec, hM, Matrix.transpose_add, Matrix.add_mulVec, n1, zero_add]
    have a3 : M *ᵥ d ⬝ᵥ M *ᵥ d = M *ᵥ d ⬝ᵥ (r + f - E *ᵥ x - (b + f - M *ᵥ x')) := congrArg (M *ᵥ d ⬝ᵥ ·) e1
    rw [a3, dotProduct_sub, a1, sub_zero, add_sub_assoc, dotProduct_add, a2]
  have c1 := hA.perturb hE d
  rw [← hM] at c1
  have c2 : c / 2 * len d ≤ len (M *ᵥ d) :=
    (mul_le_mul_of_nonneg_right (by linarith : c / 2 ≤ c - e) (len_nonneg d)).trans c1
  have b1 := (abs_le.1 (abs_dot_le_len d (Eᵀ *ᵥ r))).2
  have b2 := (abs_le.1 (abs_dot_le_len (M *ᵥ d) (f - E *ᵥ x))).2
  have he0 : 0 ≤ e := (frob_nonneg _).trans hE
  have b3 : len (Eᵀ *ᵥ r) ≤ e * len r := by
    refine (len_mulVec_le _ _).trans (mul_le_mul_of_nonneg_right ?_ (len_nonneg r))
    rwa [frob_transpose]
  have b4 : len (f - E *ᵥ x) ≤ len f + e * len x :=
    (len_sub_le _ _).trans (add_le_add le_rfl ((len_mulVec_le E x).trans (mul_le_mul_of_nonneg_right hE (len_nonneg x))))
  have b5 : len d ≤ 2 / c * len (M *ᵥ d) := by
    rw [div_mul_eq_mul_div, le_div_iff₀ hc]; linarith
  rw [← len_sq] at e2
  set t := len (M *ᵥ d) with ht
  have ht0 : 0 ≤ t := len_nonneg _
  have k1 : t ^ 2 ≤ t * (2 / c * (e * len r) + (len f + e * len x)) := by
    have p1 : len d * len (Eᵀ *ᵥ r) ≤ 2 / c * t * (e * len r) :=
      mul_le_mul b5 b3 (len_nonneg _) (by positivity)
    have p2 : t * len (f - E *ᵥ x) ≤ t * (len f + e * len x) := mul_le_mul_of_nonneg_left b4 ht0
    have p3 : 2 / c * t * (e * len r) = t * (2 / c * (e * len r)) := by ring
    rw [mul_add]
    linarith
  have k2 : t ≤ 2 / c * (e * len r) + (len f + e * len x) := by
    rcases ht0.eq_or_lt with h0 | h0
    · rw [← h0]
      have := len_nonneg r; have := len_nonneg f; have := len_nonneg x
      positivity
    · rw [sq] at k1
      exact le_of_mul_le_mul_left k1 h0
  have k3 := mul_le_mul_of_nonneg_left k2 (by positivity : 0 ≤ 2 / c)
  refine b5.trans (k3.trans (le_of_eq ?_))
  field_simp
  ring

/-- A solution of least length lies in the range of the matrix. -/
theorem IsMinNorm.range {M : Matrix (Fin m) (Fin n) ℝ} {b : Fin n → ℝ} {z : Fin m → ℝ} (h : IsMinNorm M b z)
    (hinj : ∀ x, M *ᵥ x = 0 → x = 0) : ∃ w, z = M *ᵥ w := by
  have hdet : IsUnit (Mᵀ * M).det := by
    rw [isUnit_iff_ne_zero]
    intro h0
    obtain ⟨x, hx, h1⟩ := Matrix.exists_mulVec_eq_zero_iff.2 h0
    refine hx (hinj x (dotProduct_self_eq_zero.1 ?_))
    rw [mulVec_dot, Matrix.mulVec_mulVec, h1, dotProduct_zero]
  set w := (Mᵀ * M)⁻¹ *ᵥ b with hw
  have hMw : Mᵀ *ᵥ (M *ᵥ w) = b := by
    rw [hw, Matrix.mulVec_mulVec, Matrix.mulVec_mulVec, Matrix.mul_nonsing_inv _ hdet, Matrix.one_mulVec]
  refine ⟨w, ?_⟩
  have h1 := h.2 _ hMw
  have h2 : len z ^ 2 ≤ len (M *ᵥ w) ^ 2 := pow_le_pow_left₀ (len_nonneg _) h1 2
  have h3 : M *ᵥ w ⬝ᵥ (z - M *ᵥ w) = 0 := by
    rw [mulVec_dot, Matrix.mulVec_sub, h.1, hMw, sub_self, dotProduct_zero]
  rw [len_sq, len_sq] at h2
  have h4 : z ⬝ᵥ z = M *ᵥ w ⬝ᵥ M *ᵥ w + (z - M *ᵥ w) ⬝ᵥ (z - M *ᵥ w) := by
    set g := z - M *ᵥ w with hg
    have : z = M *ᵥ w + g := by rw [hg]; abel
    rw [this, add_dotProduct, dotProduct_add, dotProduct_add, h3, dotProduct_comm g, h3]
    ring
  have h5 : 0 ≤ (z - M *ᵥ w) ⬝ᵥ (z - M *ᵥ w) := by rw [← len_sq]; positivity
  exact sub_eq_zero.1 (dotProduct_self_eq_zero.1 (by linarith))

/-- Perturbation of a solution of least length. -/
theorem fwd_minNorm {A E : Matrix (Fin m) (Fin n) ℝ} {x z : Fin m → ℝ} {b : Fin n → ℝ} {c e : ℝ} (hc : 0 < c)
    (hA : SvMin A c) (hE : frob E ≤ e) (he : 2 * e ≤ c) (h : IsMinNorm A b x) (h' : IsMinNorm (A + E) b z) :
    len (z - x) ≤ 4 * e / c * len x := by
  have he0 : 0 ≤ e := (frob_nonneg _).trans hE
  have hM := hA.perturb hE
  obtain ⟨w, hw⟩ := h.range fun x hx => hA.inj hc hx
  obtain ⟨w', hw'⟩ := h'.range fun x hx => hM.inj (by linarith) hx
  set M := A + E with hMd
  set y := w' - w with hy
  have d1 : z - x = M *ᵥ y + E *ᵥ w := by
    rw [hw, hw', hy, Matrix.mulVec_sub, hMd, Matrix.add_mulVec A E w]; abel
  have d2 : M *ᵥ y ⬝ᵥ (z - x) = -(y ⬝ᵥ Eᵀ *ᵥ x) := by
    rw [← Matrix.vecMul_transpose, ← Matrix.dotProduct_mulVec, Matrix.mulVec_sub, h'.1, hMd, Matrix.transpose_add,
      Matrix.add_mulVec, h.1, sub_add_cancel_left, dotProduct_neg]
  have hwl : len w ≤ len x / c := by
    rw [le_div_iff₀ hc, hw]
    have := hA w
    linarith
  have hyl : len y ≤ 2 / c * len (M *ᵥ y) := by
    have := hM y
    have : c / 2 * len y ≤ len (M *ᵥ y) :=
      (mul_le_mul_of_nonneg_right (by linarith : c / 2 ≤ c - e) (len_nonneg y)).trans this
    rw [div_mul_eq_mul_div, le_div_iff₀ hc]; linarith
  have hEw : len (E *ᵥ w) ≤ e * (len x / c) :=
    (len_mulVec_le _ _).trans (mul_le_mul hE hwl (len_nonneg _) he0)
  have hEx : len (Eᵀ *ᵥ x) ≤ e * len x := by
    refine (len_mulVec_le _ _).trans (mul_le_mul_of_nonneg_right ?_ (len_nonneg x))
    rwa [frob_transpose]
  set t := len (M *ᵥ y) with ht
  have ht0 : 0 ≤ t := len_nonneg _
  have k1 : t ^ 2 ≤ t * (2 / c * (e * len x) + e * (len x / c)) := by
    rw [d1, dotProduct_add, ← len_sq, ← ht] at d2
    have a1 := (abs_le.1 (abs_dot_le_len y (Eᵀ *ᵥ x))).1
    have a2 := (abs_le.1 (abs_dot_le_len (M *ᵥ y) (E *ᵥ w))).1
    rw [← ht] at a2
    have p1 : len y * len (Eᵀ *ᵥ x) ≤ 2 / c * t * (e * len x) := mul_le_mul hyl hEx (len_nonneg _) (by positivity)
    have p2 : t * len (E *ᵥ w) ≤ t * (e * (len x / c)) := mul_le_mul_of_nonneg_left hEw ht0
    have p3 : 2 / c * t * (e * len x) = t * (2 / c * (e * len x)) := by ring
    rw [mul_add]
    linarith
  have k2 : t ≤ 2 / c * (e * len x) + e * (len x / c) := by
    rcases ht0.eq_or_lt with h0 | h0
    · rw [← h0]
      have := len_nonneg x
      positivity
    · rw [sq] at k1
      exact le_of_mul_le_mul_left k1 h0
  have k3 := len_add_le (M *ᵥ y) (E *ᵥ w)
  rw [← d1, ← ht] at k3
  have k4 : 4 * e / c * len x = 2 / c * (e * len x) + e * (len x / c) + e * (len x / c) := by
    field_simp; ring
  rw [k4]
  linarith

end LinfaLinalg
