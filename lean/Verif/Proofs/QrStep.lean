import Verif.Proofs.EighReal

/-! # One implicit QR step with Wilkinson's shift

A sweep of `symmetric_eig` (bulge chasing from a shifted first column) is a QR step, and with
Wilkinson's shift it halves the potential `(β₁² β₂)²` of the last two off-diagonal entries (Hoffman and
Parlett). -/

set_option linter.unusedSimpArgs false

namespace LinfaLinalg

open Matrix

/-! ## Wilkinson's shift -/

/-- Wilkinson's shift is an eigenvalue of the trailing `2 × 2` block, within the off-diagonal entry of
its last diagonal entry. -/
theorem wilkinsonShift_real (a b t : ℝ) :
    (a - wilkinsonShift a b t) * (b - wilkinsonShift a b t) = t * t ∧
      |b - wilkinsonShift a b t| ≤ |t| := by
  by_cases ht : t = 0
  · simp [wilkinsonShift, ht]
  · simp only [wilkinsonShift, real_isZero, ht, decide_false, Bool.not_false, if_true, real_ofRat,
      real_signum, real_sqrt]
    push_cast
    set d : ℝ := (a - b) * (1 / 2) with hd
    have hab : a - b = 2 * d := by rw [hd]; ring
    set q := Real.sqrt (d * d + t * t) with hq
    have hpos : 0 < d * d + t * t := by
      have := mul_self_pos.2 ht
      nlinarith [mul_self_nonneg d]
    have hq0 : 0 < q := Real.sqrt_pos.2 hpos
    have hqq : q * q = d * d + t * t := Real.mul_self_sqrt hpos.le
    have htq : |t| ≤ q := by
      apply Real.abs_le_sqrt
      nlinarith [mul_self_nonneg d]
    set sg : ℝ := if d < 0 then -1 else 1 with hsg
    have hss : sg * sg = 1 := by rw [hsg]; split_ifs <;> norm_num
    have hds : 0 ≤ d * sg := by
      rw [hsg]; split_ifs with h
      · linarith
      · linarith
    set D := d + sg * q with hD
    have hDs : D * sg = d * sg + q := by rw [hD]; linear_combination q * hss
    have hD0 : D ≠ 0 := by
      intro h
      rw [h, zero_mul] at hDs
      linarith
    have hDabs : q ≤ |D| := by
      have h1 : |D * sg| = |D| := by
        rw [abs_mul]
        have : |sg| = 1 := by rw [hsg]; split_ifs <;> norm_num
        rw [this, mul_one]
      rw [← h1, hDs, abs_of_nonneg (by linarith)]
      linarith
    have hDD : D * D = 2 * d * D + t * t := by
      rw [hD]
      linear_combination hqq + q * q * hss
    have e2 : b - (b - t * t / D) = t * t / D := by ring
    have e1 : a - (b - t * t / D) = 2 * d + t * t / D := by linear_combination hab
    rw [e1, e2]
    constructor
    · field_simp
      linear_combination -hDD
    · rw [abs_div, abs_mul, div_le_iff₀ (lt_of_lt_of_le hq0 hDabs)]
      exact mul_le_mul_of_nonneg_left (htq.trans hDabs) (abs_nonneg _)

/-! ## Products with a tridiagonal matrix -/

/-- The entry of a matrix at natural indices. -/
def ent {m n : Nat} (A : Matrix (Fin m) (Fin n) ℝ) (r k : Nat) : ℝ :=
  if h : r < m ∧ k < n then A ⟨r, h.1⟩ ⟨k, h.2⟩ else 0

theorem ent_of {m n : Nat} (A : Matrix (Fin m) (Fin n) ℝ) {r k : Nat} (hr : r < m) (hk : k < n) :
    ent A r k = A ⟨r, hr⟩ ⟨k, hk⟩ := dif_pos ⟨hr, hk⟩

theorem ent_fin {m n : Nat} (A : Matrix (Fin m) (Fin n) ℝ) (r : Fin m) (k : Fin n) :
    A r k = ent A r k := (ent_of A r.2 k.2).symm

theorem ent_out {m n : Nat} (A : Matrix (Fin m) (Fin n) ℝ) {r k : Nat} (h : m ≤ r ∨ n ≤ k) :
    ent A r k = 0 := dif_neg (by omega)

theorem ent_transpose {m n : Nat} (A : Matrix (Fin m) (Fin n) ℝ) (r k : Nat) :
    ent Aᵀ r k = ent A k r := by
  unfold ent
  by_cases h : k < m ∧ r < n
  · rw [dif_pos h, dif_pos ⟨h.2, h.1⟩]; rfl
  · rw [dif_neg h, dif_neg (fun h' => h ⟨h'.2, h'.1⟩)]

/-- Entries of a product, as a sum over natural indices. -/
theorem ent_mul {m n p : Nat} (A : Matrix (Fin m) (Fin n) ℝ) (B : Matrix (Fin n) (Fin p) ℝ)
    {r k : Nat} (hr : r < m) (hk : k < p) :
    ent (A * B) r k = ∑ j ∈ Finset.range n, ent A r j * ent B j k := by
  rw [ent_of _ hr hk, Matrix.mul_apply, Finset.sum_range]
  exact Finset.sum_congr rfl fun j _ => by rw [ent_of A hr j.2, ent_of B j.2 hk]

theorem tridiag_symm (n : Nat) (d e : Nat → ℝ) : (tridiag n d e)ᵀ = tridiag n d e := by
  ext i j
  simp only [tridiag, Matrix.of_apply, Matrix.transpose_apply]
  split_ifs <;> first | rfl | omega | (congr 1)

theorem ent_tridiag (n : Nat) (d e : Nat → ℝ) {r k : Nat} (hr : r < n) (hk : k < n) :
    ent (tridiag n d e) r k = if r = k then d r else if r = k + 1 then e k
      else if k = r + 1 then e r else 0 := by
  rw [ent_of _ hr hk]
  simp only [tridiag, Matrix.of_apply]

/-- Multiplication by a tridiagonal matrix from the right. -/
theorem ent_mul_tridiag {m n : Nat} (A : Matrix (Fin m) (Fin n) ℝ) (d e : Nat → ℝ) {r k : Nat}
    (hr : r < m) (hk : k < n) :
    ent (A * tridiag n d e) r k = (if k = 0 then 0 else ent A r (k - 1) * e (k - 1)) +
      ent A r k * d k + ent A r (k + 1) * e k := by
  rw [ent_mul _ _ hr hk]
  have hsub : ∀ j ∈ Finset.range n, ent A r j * ent (tridiag n d e) j k =
      (if j + 1 = k then ent A r (k - 1) * e (k - 1) else 0) + (if j = k then ent A r k * d k else 0) +
      (if j = k + 1 then ent A r (k + 1) * e k else 0) := by
    intro j hj
    rw [Finset.mem_range] at hj
    rw [ent_tridiag n d e hj hk]
    by_cases h1 : j = k
    · subst h1
      rw [if_pos rfl, if_neg (by omega), if_pos rfl, if_neg (by omega)]; ring
    · by_cases h2 : j = k + 1
      · subst h2
        rw [if_neg h1, if_pos rfl, if_neg (by omega), if_neg h1, if_pos rfl]; ring
      · by_cases h3 : k = j + 1
        · subst h3
          rw [if_neg h1, if_neg h2, if_pos rfl, if_pos rfl, if_neg h1, if_neg h2]; simp
        · rw [if_neg h1, if_neg h2, if_neg h3, if_neg (by omega), if_neg h1, if_neg h2]; ring
  rw [Finset.sum_congr rfl hsub, Finset.sum_add_distrib, Finset.sum_add_distrib,
    Finset.sum_ite_eq' (Finset.range n) k, if_pos (Finset.mem_range.2 hk),
    Finset.sum_ite_eq' (Finset.range n) (k + 1)]
  have e1 : ∑ j ∈ Finset.range n, (if j + 1 = k then ent A r (k - 1) * e (k - 1) else 0) =
      if k = 0 then 0 else ent A r (k - 1) * e (k - 1) := by
    by_cases h0 : k = 0
    · rw [if_pos h0]
      exact Finset.sum_eq_zero fun j _ => if_neg (by omega)
    · rw [if_neg h0]
      have : ∀ j ∈ Finset.range n, (if j + 1 = k then ent A r (k - 1) * e (k - 1) else 0) =
          if j = k - 1 then ent A r (k - 1) * e (k - 1) else 0 := by
        intro j _
        congr 1
        simp only [eq_iff_iff]; omega
      rw [Finset.sum_congr rfl this, Finset.sum_ite_eq' (Finset.range n) (k - 1),
        if_pos (Finset.mem_range.2 (by omega))]
  have e2 : (if k + 1 ∈ Finset.range n then ent A r (k + 1) * e k else 0) = ent A r (k + 1) * e k := by
    by_cases h : k + 1 ∈ Finset.range n
    · rw [if_pos h]
    · rw [if_neg h, ent_out A (Or.inr (by rw [Finset.mem_range] at h; omega)), zero_mul]
  rw [e1, e2]

/-- Multiplication by a tridiagonal matrix from the left. -/
theorem ent_tridiag_mul {m n : Nat} (A : Matrix (Fin n) (Fin m) ℝ) (d e : Nat → ℝ) {r k : Nat}
    (hr : r < n) (hk : k < m) :
    ent (tridiag n d e * A) r k = (if r = 0 then 0 else e (r - 1) * ent A (r - 1) k) +
      d r * ent A r k + e r * ent A (r + 1) k := by
  have h := ent_mul_tridiag Aᵀ d e hk hr
  rw [← tridiag_symm, ← Matrix.transpose_mul, ent_transpose] at h
  rw [h]
  simp only [ent_transpose]
  split_ifs <;> ring

/-! ## The step -/

/-- What the sweep on the block `s..=E` does to the whole matrix. -/
structure QrStep (n s E : Nat) (σ : ℝ) (d e d' e' : Nat → ℝ) (W : Matrix (Fin n) (Fin n) ℝ) : Prop where
  orth : Wᵀ * W = 1
  sim : W * tridiag n d e * Wᵀ = tridiag n d' e'
  hess : ∀ r c, r + 1 < c → ent W r c = 0
  out : ∀ r c, r < n → c < n → c < s ∨ E < c → ent W r c = if r = c then 1 else 0
  first : ∀ r, r < n → r ≠ s → ent (W * (tridiag n d e - σ • (1 : Matrix (Fin n) (Fin n) ℝ))) r s = 0

theorem ent_one (n : Nat) {r k : Nat} (hr : r < n) (hk : k < n) :
    ent (1 : Matrix (Fin n) (Fin n) ℝ) r k = if r = k then 1 else 0 := by
  rw [ent_of _ hr hk, Matrix.one_apply]
  simp only [Fin.mk.injEq]

theorem ent_sub {m n : Nat} (A B : Matrix (Fin m) (Fin n) ℝ) (r k : Nat) :
    ent (A - B) r k = ent A r k - ent B r k := by
  unfold ent
  split_ifs
  · rfl
  · ring

theorem ent_add {m n : Nat} (A B : Matrix (Fin m) (Fin n) ℝ) (r k : Nat) :
    ent (A + B) r k = ent A r k + ent B r k := by
  unfold ent
  split_ifs
  · rfl
  · ring

theorem ent_smul {m n : Nat} (c : ℝ) (A : Matrix (Fin m) (Fin n) ℝ) (r k : Nat) :
    ent (c • A) r k = c * ent A r k := by
  unfold ent
  split_ifs
  · rfl
  · ring

/-- The triangular factor: below the diagonal, and above the block, it vanishes. -/
theorem QrStep.upper {n s E : Nat} {σ : ℝ} {d e d' e' : Nat → ℝ} {W : Matrix (Fin n) (Fin n) ℝ}
    (h : QrStep n s E σ d e d' e' W) (hE : E < n) (he : ∀ k, s ≤ k → k < E → e k ≠ 0)
    (hs : s ≠ 0 → e (s - 1) = 0) (hs' : s ≠ 0 → e' (s - 1) = 0) (k : Nat) (h1 : s ≤ k) (h2 : k ≤ E) :
    ∀ r, r < n → (k < r ∨ r < s) →
      ent (W * (tridiag n d e - σ • (1 : Matrix (Fin n) (Fin n) ℝ))) r k = 0 := by
  set T := tridiag n d e with hT
  set T' := tridiag n d' e' with hT'
  set M := W * (T - σ • (1 : Matrix (Fin n) (Fin n) ℝ)) with hM
  have hcomm : T' * M = M * T := by
    have e1 : T' * W = W * T := by
      rw [hT', ← h.sim, Matrix.mul_assoc, h.orth, Matrix.mul_one]
    rw [hM, ← Matrix.mul_assoc, e1, Matrix.mul_assoc, Matrix.mul_assoc]
    congr 1
    rw [Matrix.mul_sub, Matrix.sub_mul]
    simp
  induction k using Nat.strong_induction_on with
  | _ k ih =>
    intro r hr hkr
    by_cases hks : k = s
    · subst hks
      exact h.first r hr (by omega)
    · -- column `k - 1` of `T' M = M T`
      obtain ⟨j, rfl⟩ : ∃ j, k = j + 1 := ⟨k - 1, by omega⟩
      have hcol := congrArg (fun X => ent X r j) hcomm
      rw [ent_tridiag_mul M d' e' hr (by omega), ent_mul_tridiag M d e hr (by omega)] at hcol
      have z0 : ent M r j = 0 := ih j (by omega) (by omega) (by omega) r hr (by omega)
      have z1 : (if j = 0 then 0 else ent M r (j - 1) * e (j - 1)) = 0 := by
        by_cases hj : j = 0
        · rw [if_pos hj]
        · rw [if_neg hj]
          by_cases hjs : j = s
          · rw [hjs, hs (by omega), mul_zero]
          · rw [ih (j - 1) (by omega) (by omega) (by omega) r hr (by omega), zero_mul]
      have z2 : (if r = 0 then 0 else e' (r - 1) * ent M (r - 1) j) = 0 := by
        by_cases hr0 : r = 0
        · rw [if_pos hr0]
        · rw [if_neg hr0, ih j (by omega) (by omega) (by omega) (r - 1) (by omega) (by omega), mul_zero]
      have z3 : e' r * ent M (r + 1) j = 0 := by
        by_cases hrn : r + 1 < n
        · by_cases hrs : r + 1 = s
          · have := hs' (by omega)
            rw [show s - 1 = r by omega] at this
            rw [this, zero_mul]
          · rw [ih j (by omega) (by omega) (by omega) (r + 1) hrn (by omega), mul_zero]
        · rw [ent_out M (Or.inl (by omega)), mul_zero]
      rw [z0, z1, z2, z3] at hcol
      have : ent M r (j + 1) * e j = 0 := by linarith
      exact (mul_eq_zero.1 this).resolve_right (he j (by omega) (by omega))

/-- The equations of a QR step on the last three rows. -/
theorem QrStep.last {n s E : Nat} {σ : ℝ} {d e d' e' : Nat → ℝ} {W : Matrix (Fin n) (Fin n) ℝ}
    (h : QrStep n s E σ d e d' e' W) (hE : E < n) (hsE : s + 2 ≤ E)
    (he : ∀ k, s ≤ k → k < E → e k ≠ 0) (heE : e E = 0)
    (hs : s ≠ 0 → e (s - 1) = 0) (hs' : s ≠ 0 → e' (s - 1) = 0) :
    ∃ ρ μ : ℝ, e (E - 1) = ent W (E - 1) E * μ ∧ e' (E - 1) = ρ * ent W (E - 1) E ∧
      e' (E - 2) = μ * ent W (E - 2) (E - 1) ∧
      ρ = e (E - 1) * ent W E (E - 1) + (d E - σ) * ent W E E ∧
      0 = e (E - 2) * ent W E (E - 2) + (d (E - 1) - σ) * ent W E (E - 1) + e (E - 1) * ent W E E := by
  have hup := h.upper hE he hs hs'
  set T := tridiag n d e with hT
  set M := W * (T - σ • (1 : Matrix (Fin n) (Fin n) ℝ)) with hM
  have hMW : M = W * T - σ • W := by rw [hM, Matrix.mul_sub, Matrix.mul_smul, Matrix.mul_one]
  have hent : ∀ r k, r < n → k < n → ent M r k =
      (if k = 0 then 0 else ent W r (k - 1) * e (k - 1)) + ent W r k * d k + ent W r (k + 1) * e k -
        σ * ent W r k := by
    intro r k hr hk
    rw [hMW, ent_sub, ent_smul, hT, ent_mul_tridiag W d e hr hk]
  have hWW : W * Wᵀ = 1 := mul_eq_one_comm.1 h.orth
  -- `T = Wᵀ M + σ`, `T' = M Wᵀ + σ`
  have hT0 : T = Wᵀ * M + σ • (1 : Matrix (Fin n) (Fin n) ℝ) := by
    rw [hM, ← Matrix.mul_assoc, h.orth, Matrix.one_mul, sub_add_cancel]
  have hT1 : tridiag n d' e' = M * Wᵀ + σ • (1 : Matrix (Fin n) (Fin n) ℝ) := by
    rw [← h.sim, hM, Matrix.mul_sub, Matrix.sub_mul, Matrix.mul_smul, Matrix.mul_one, Matrix.smul_mul, hWW,
      sub_add_cancel]
  refine ⟨ent M E E, ent M (E - 1) (E - 1), ?_, ?_, ?_, ?_, ?_⟩
  · -- entry `(E, E - 1)` of `T`
    have e1 := congrArg (fun X => ent X E (E - 1)) hT0
    rw [hT, ent_tridiag n d e hE (by omega), if_neg (by omega), if_pos (by omega), ent_add, ent_smul,
      ent_one n hE (by omega), if_neg (by omega), mul_zero, add_zero, ent_mul _ _ hE (by omega)] at e1
    rw [e1, Finset.sum_eq_single (E - 1)]
    · rw [ent_transpose]
    · intro j hj hne
      rw [Finset.mem_range] at hj
      rw [ent_transpose]
      by_cases hjE : j < E - 1
      · rw [h.hess j E (by omega), zero_mul]
      · rw [hup (E - 1) (by omega) (by omega) j hj (by omega), mul_zero]
    · intro hn; rw [Finset.mem_range] at hn; omega
  · -- entry `(E, E - 1)` of `T'`
    have e1 := congrArg (fun X => ent X E (E - 1)) hT1
    rw [ent_tridiag n d' e' hE (by omega), if_neg (by omega), if_pos (by omega), ent_add, ent_smul,
      ent_one n hE (by omega), if_neg (by omega), mul_zero, add_zero, ent_mul _ _ hE (by omega)] at e1
    rw [e1, Finset.sum_eq_single E]
    · rw [ent_transpose]
    · intro j hj hne
      rw [Finset.mem_range] at hj
      rw [ent_transpose]
      by_cases hjs : j < s ∨ E < j
      · rw [h.out (E - 1) j (by omega) hj hjs, if_neg (by omega), mul_zero]
      · rw [hup j (by omega) (by omega) E hE (by omega), zero_mul]
    · intro hn; rw [Finset.mem_range] at hn; omega
  · -- entry `(E - 1, E - 2)` of `T'`
    have e1 := congrArg (fun X => ent X (E - 1) (E - 2)) hT1
    rw [ent_tridiag n d' e' (by omega) (by omega), if_neg (by omega), if_pos (by omega), ent_add, ent_smul,
      ent_one n (by omega) (by omega), if_neg (by omega), mul_zero, add_zero,
      ent_mul _ _ (by omega) (by omega)] at e1
    rw [e1, Finset.sum_eq_single (E - 1)]
    · rw [ent_transpose]
    · intro j hj hne
      rw [Finset.mem_range] at hj
      rw [ent_transpose]
      by_cases hjs : j < s
      · rw [h.out (E - 2) j (by omega) hj (Or.inl hjs), if_neg (by omega), mul_zero]
      · by_cases hjE : j < E - 1
        · rw [hup j (by omega) (by omega) (E - 1) (by omega) (by omega), zero_mul]
        · rw [h.hess (E - 2) j (by omega), mul_zero]
    · intro hn; rw [Finset.mem_range] at hn; omega
  · rw [hent E E hE hE, if_neg (by omega), heE]
    ring
  · have h0 := hup (E - 1) (by omega) (by omega) E hE (by omega)
    rw [hent E (E - 1) hE (by omega), if_neg (by omega), show E - 1 - 1 = E - 2 by omega,
      show E - 1 + 1 = E by omega] at h0
    linarith

/-- The potential: the square of `β₁² β₂`. -/
def pot (e : Nat → ℝ) (E : Nat) : ℝ := (e (E - 1) ^ 2 * e (E - 2)) ^ 2

/-- The inequality behind Hoffman and Parlett's theorem. -/
theorem halves_scalar {b1 b2 f1 f2 ρ μ p q wl wm wn x y : ℝ} (hb1 : b1 ≠ 0) (h1 : b1 = p * μ)
    (h2 : f1 = ρ * p) (h3 : f2 = μ * q) (h4 : ρ = b1 * wm + y * wn)
    (h5 : 0 = b2 * wl + x * wm + b1 * wn) (w1 : x * y = b1 * b1) (w2 : |y| ≤ |b1|)
    (h3row : wl ^ 2 + wm ^ 2 + wn ^ 2 ≤ 1) (hp1 : p ^ 2 ≤ 1) (hq1 : q ^ 2 ≤ 1) :
    2 * (f1 ^ 2 * f2) ^ 2 ≤ (b1 ^ 2 * b2) ^ 2 := by
  have r1 : b1 * ρ = -(b2 * wl * y) := by
    rw [h4]
    linear_combination (-wm) * w1 - y * h5
  have hy2 : y ^ 2 ≤ b1 ^ 2 := by
    rw [← sq_abs y, ← sq_abs b1]
    exact pow_le_pow_left₀ (abs_nonneg _) w2 2
  have hb1p : 0 < b1 ^ 2 := by positivity
  have r2 : ρ ^ 2 ≤ b2 ^ 2 * wl ^ 2 := by
    have : b1 ^ 2 * ρ ^ 2 ≤ b1 ^ 2 * (b2 ^ 2 * wl ^ 2) := by
      calc b1 ^ 2 * ρ ^ 2 = (b1 * ρ) ^ 2 := by ring
        _ = y ^ 2 * (b2 ^ 2 * wl ^ 2) := by rw [r1]; ring
        _ ≤ b1 ^ 2 * (b2 ^ 2 * wl ^ 2) := mul_le_mul_of_nonneg_right hy2 (by positivity)
    exact le_of_mul_le_mul_left this hb1p
  have r3 : ρ ^ 2 ≤ b1 ^ 2 * (2 * (wm ^ 2 + wn ^ 2)) := by
    rw [h4]
    calc (b1 * wm + y * wn) ^ 2 ≤ 2 * ((b1 * wm) ^ 2 + (y * wn) ^ 2) := by
          nlinarith [sq_nonneg (b1 * wm - y * wn)]
      _ = 2 * (b1 ^ 2 * wm ^ 2 + y ^ 2 * wn ^ 2) := by ring
      _ ≤ 2 * (b1 ^ 2 * wm ^ 2 + b1 ^ 2 * wn ^ 2) := by
          have := mul_le_mul_of_nonneg_right hy2 (sq_nonneg wn)
          linarith
      _ = _ := by ring
  have r4 : wl ^ 2 * (2 * (wm ^ 2 + wn ^ 2)) ≤ 1 / 2 := by
    have h0 : 0 ≤ wl ^ 2 := sq_nonneg _
    have : wl ^ 2 * (wm ^ 2 + wn ^ 2) ≤ wl ^ 2 * (1 - wl ^ 2) :=
      mul_le_mul_of_nonneg_left (by linarith) h0
    nlinarith [sq_nonneg (wl ^ 2 - 1 / 2)]
  have r5 : ρ ^ 4 ≤ b1 ^ 2 * b2 ^ 2 * (1 / 2) := by
    calc ρ ^ 4 = ρ ^ 2 * ρ ^ 2 := by ring
      _ ≤ (b2 ^ 2 * wl ^ 2) * (b1 ^ 2 * (2 * (wm ^ 2 + wn ^ 2))) :=
          mul_le_mul r2 r3 (sq_nonneg _) (by positivity)
      _ = b1 ^ 2 * b2 ^ 2 * (wl ^ 2 * (2 * (wm ^ 2 + wn ^ 2))) := by ring
      _ ≤ _ := mul_le_mul_of_nonneg_left r4 (by positivity)
  have e1 : (f1 ^ 2 * f2) ^ 2 = ρ ^ 4 * (p ^ 2 * q ^ 2) * b1 ^ 2 := by
    rw [h1, h2, h3]; ring
  rw [e1]
  have hpq : p ^ 2 * q ^ 2 ≤ 1 := mul_le_one₀ hp1 (sq_nonneg _) hq1
  have e2 : ρ ^ 4 * (p ^ 2 * q ^ 2) ≤ ρ ^ 4 * 1 := mul_le_mul_of_nonneg_left hpq (by positivity)
  have e3 : ρ ^ 4 * (p ^ 2 * q ^ 2) * b1 ^ 2 ≤ b1 ^ 2 * b2 ^ 2 * (1 / 2) * b1 ^ 2 :=
    mul_le_mul_of_nonneg_right (by linarith) hb1p.le
  calc 2 * (ρ ^ 4 * (p ^ 2 * q ^ 2) * b1 ^ 2) ≤ 2 * (b1 ^ 2 * b2 ^ 2 * (1 / 2) * b1 ^ 2) := by linarith
    _ = (b1 ^ 2 * b2) ^ 2 := by ring

/-- Hoffman and Parlett: a QR step with Wilkinson's shift halves the potential. -/
theorem QrStep.halves {n s E : Nat} {σ : ℝ} {d e d' e' : Nat → ℝ} {W : Matrix (Fin n) (Fin n) ℝ}
    (h : QrStep n s E σ d e d' e' W) (hE : E < n) (hsE : s + 2 ≤ E)
    (he : ∀ k, s ≤ k → k < E → e k ≠ 0) (heE : e E = 0)
    (hs : s ≠ 0 → e (s - 1) = 0) (hs' : s ≠ 0 → e' (s - 1) = 0)
    (hσ : σ = wilkinsonShift (d (E - 1)) (d E) (e (E - 1))) :
    2 * pot e' E ≤ pot e E := by
  obtain ⟨ρ, μ, h1, h2, h3, h4, h5⟩ := h.last hE hsE he heE hs hs'
  obtain ⟨w1, w2⟩ := wilkinsonShift_real (d (E - 1)) (d E) (e (E - 1))
  rw [← hσ] at w1 w2
  have hb1 : e (E - 1) ≠ 0 := he (E - 1) (by omega) (by omega)
  have hWW : W * Wᵀ = 1 := mul_eq_one_comm.1 h.orth
  -- rows of `W` are unit vectors
  have hrow : ∀ r, r < n → ∑ j ∈ Finset.range n, ent W r j ^ 2 = 1 := by
    intro r hr
    have := congrArg (fun X => ent X r r) hWW
    rw [ent_mul _ _ hr hr, ent_one n hr hr, if_pos rfl] at this
    rw [← this]
    exact Finset.sum_congr rfl fun j _ => by rw [ent_transpose]; ring
  have hle1 : ∀ r c, r < n → c < n → ent W r c ^ 2 ≤ 1 := by
    intro r c hr hc
    rw [← hrow r hr]
    exact Finset.single_le_sum (f := fun j => ent W r j ^ 2) (fun j _ => sq_nonneg _)
      (Finset.mem_range.2 hc)
  have h3row : ent W E (E - 2) ^ 2 + ent W E (E - 1) ^ 2 + ent W E E ^ 2 ≤ 1 := by
    rw [← hrow E hE]
    have hsub : ({E - 2, E - 1, E} : Finset Nat) ⊆ Finset.range n := by
      intro j hj
      simp only [Finset.mem_insert, Finset.mem_singleton] at hj
      rw [Finset.mem_range]; omega
    have := Finset.sum_le_sum_of_subset_of_nonneg (f := fun j => ent W E j ^ 2) hsub
      (fun j _ _ => sq_nonneg _)
    rwa [Finset.sum_insert (by simp; omega), Finset.sum_insert (by simp; omega),
      Finset.sum_singleton, ← add_assoc] at this
  exact halves_scalar hb1 h1 h2 h3 h4 h5 w1 w2 h3row (hle1 (E - 1) E (by omega) hE)
    (hle1 (E - 2) (E - 1) (by omega) (by omega))

end LinfaLinalg
