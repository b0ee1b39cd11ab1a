import Verif.Proofs.RoundedEigh
import Verif.Spec.EighRun

/-! # Rounding errors of `symmetric_eig`: the main loop -/

set_option linter.unusedSimpArgs false
set_option linter.unusedSectionVars false

namespace LinfaLinalg

open Matrix

variable {R : StdModel}

/-- Tridiagonal matrices that differ in a `2 × 2` block. -/
theorem frob_two {n s : Nat} (hs : s + 1 < n) {d d' e e' : Nat → ℝ} {ε : ℝ} (hε : 0 ≤ ε)
    (hd : ∀ k, k ≠ s → k ≠ s + 1 → d' k = d k) (he : ∀ k, k ≠ s → e' k = e k) (h0 : |d' s - d s| ≤ ε)
    (h1 : |d' (s + 1) - d (s + 1)| ≤ ε) (h2 : |e' s - e s| ≤ ε) :
    frob (tridiag n d' e' - tridiag n d e) ≤ 2 * ε := by
  let a : Fin n := ⟨s, by omega⟩
  let b : Fin n := ⟨s + 1, hs⟩
  have hab : a ≠ b := fun h => by have := Fin.mk.inj_iff.1 h; omega
  apply frob_le_of_sq (by linarith)
  rw [sum_sq_block _ a b hab]
  · have e1 : (tridiag n d' e' - tridiag n d e) a a = d' s - d s := by simp [tridiag, a]
    have e2 : (tridiag n d' e' - tridiag n d e) b b = d' (s + 1) - d (s + 1) := by simp [tridiag, b]
    have e3 : (tridiag n d' e' - tridiag n d e) a b = e' s - e s := by
      simp only [Matrix.sub_apply, tridiag, Matrix.of_apply, a, b]
      split_ifs <;> first | omega | rfl
    have e4 : (tridiag n d' e' - tridiag n d e) b a = e' s - e s := by
      simp only [Matrix.sub_apply, tridiag, Matrix.of_apply, a, b]
      split_ifs <;> first | omega | rfl
    rw [e1, e2, e3, e4]
    have g0 := pow_le_pow_left₀ (abs_nonneg _) h0 2
    have g1 := pow_le_pow_left₀ (abs_nonneg _) h1 2
    have g2 := pow_le_pow_left₀ (abs_nonneg _) h2 2
    rw [sq_abs] at g0 g1 g2
    nlinarith
  · intro i j hij
    simp only [tridiag, Matrix.sub_apply, Matrix.of_apply]
    have h1 : (i : Nat) ≠ s ∧ (i : Nat) ≠ s + 1 ∨ (j : Nat) ≠ s ∧ (j : Nat) ≠ s + 1 := by
      rcases hij with ⟨h1, h2⟩ | ⟨h1, h2⟩
      · exact Or.inl ⟨fun h => h1 (Fin.ext h), fun h => h2 (Fin.ext h)⟩
      · exact Or.inr ⟨fun h => h1 (Fin.ext h), fun h => h2 (Fin.ext h)⟩
    split_ifs with k1 k2 k3
    · rw [hd _ (by omega) (by omega), sub_self]
    · rw [he _ (by omega), sub_self]
    · rw [he _ (by omega), sub_self]
    · exact sub_self 0

/-- An eigenvalue of a `2 × 2` block is close to the first diagonal entry when that is not much below the second. -/
theorem two_z_le {y z o K : ℝ} (hK : 0 ≤ K) (hyz : z * y = o * o) (hc : z - y ≤ K * |o|) :
    z ≤ (K + 1) * |o| := by
  have hao : |o| * |o| = o * o := abs_mul_abs_self o
  have ho := abs_nonneg o
  by_contra hcon
  push Not at hcon
  have h1 : |o| < y := by linarith
  have h2 : |o| < z := lt_of_le_of_lt (by nlinarith) hcon
  have h3 : |o| * |o| < z * y := by
    calc |o| * |o| ≤ |o| * y := mul_le_mul_of_nonneg_left h1.le ho
      _ < z * y := mul_lt_mul_of_pos_right h2 (by linarith)
  linarith

/-- The rotation of a `2 × 2` block by an inexact eigenvector `(x, o)`. -/
theorem two_scalars {d0 d1 o L0 x ρ K : ℝ} (hK : 0 ≤ K) (hy : d1 ≤ L0) (hz : d0 ≤ L0)
    (hyz : (L0 - d0) * (L0 - d1) = o * o) (hc : d1 - d0 ≤ K * |o|) (hρ : 0 < ρ) (hρ2 : ρ * ρ = x * x + o * o) :
    |x / ρ * (x / ρ) * d0 + -(o / ρ) * -(o / ρ) * d1 - 2 * (x / ρ * -(o / ρ) * o) - L0| ≤
      (K + 2) * |x - (L0 - d1)| ∧
    |-(o / ρ) * -(o / ρ) * d0 + x / ρ * (x / ρ) * d1 + 2 * (x / ρ * -(o / ρ) * o) - (d0 + d1 - L0)| ≤
      (K + 2) * |x - (L0 - d1)| ∧
    |x / ρ * -(o / ρ) * (d0 - d1) + o * (x / ρ * (x / ρ) - -(o / ρ) * -(o / ρ))| ≤ (K + 2) * |x - (L0 - d1)| := by
  obtain ⟨y, hy'⟩ : ∃ y, y = L0 - d1 := ⟨_, rfl⟩
  obtain ⟨z, hz'⟩ : ∃ z, z = L0 - d0 := ⟨_, rfl⟩
  rw [← hy']
  rw [← hy', ← hz'] at hyz
  obtain rfl : d1 = L0 - y := by rw [hy']; ring
  obtain rfl : d0 = L0 - z := by rw [hz']; ring
  clear hy' hz'
  have hy0 : 0 ≤ y := by linarith
  have hz0 : 0 ≤ z := by linarith
  have hzK : z ≤ (K + 1) * |o| := two_z_le hK hyz (by linarith)
  clear hy hz hc
  have hao : |o| * |o| = o * o := abs_mul_abs_self o
  have hax : |x| * |x| = x * x := abs_mul_abs_self x
  have hρne := hρ.ne'
  have hox : |o| * |x| ≤ ρ * ρ / 2 := by linarith [mul_self_nonneg (|o| - |x|), mul_comm |o| |x|,
    show (|o| - |x|) * (|o| - |x|) = |o| * |o| - 2 * (|o| * |x|) + |x| * |x| by ring]
  have hoo : o * o ≤ ρ * ρ := by linarith [mul_self_nonneg x]
  have hρ0 : 0 < ρ * ρ := mul_pos hρ hρ
  have e0 : x / ρ * (x / ρ) * (L0 - z) + -(o / ρ) * -(o / ρ) * (L0 - y) - 2 * (x / ρ * -(o / ρ) * o) - L0 =
      -(z * (x - y) * (x - y) / (ρ * ρ)) := by
    field_simp
    linear_combination (-(L0)) * hρ2 + (y - 2 * x) * hyz
  have e1 : -(o / ρ) * -(o / ρ) * (L0 - z) + x / ρ * (x / ρ) * (L0 - y) + 2 * (x / ρ * -(o / ρ) * o) -
      (L0 - z + (L0 - y) - L0) = z * (x - y) * (x - y) / (ρ * ρ) := by
    field_simp
    linear_combination (-(L0 - z - y)) * hρ2 + (-y + 2 * x) * hyz
  have e2 : x / ρ * -(o / ρ) * (L0 - z - (L0 - y)) + o * (x / ρ * (x / ρ) - -(o / ρ) * -(o / ρ)) =
      o * (x - y) * (x + z) / (ρ * ρ) := by
    field_simp
    linear_combination o * hyz
  rw [e0, e1, e2]
  clear e0 e1 e2
  have hK1 : 0 ≤ K + 1 := by linarith
  have b0 : z * |x - y| ≤ (K + 2) * (ρ * ρ) := by
    have t1 : |x - y| ≤ |x| + y := by
      have := abs_sub x y
      rwa [abs_of_nonneg hy0] at this
    have t2 := mul_le_mul_of_nonneg_left t1 hz0
    have t3 : z * |x| ≤ (K + 1) * |o| * |x| := mul_le_mul_of_nonneg_right hzK (abs_nonneg x)
    have t4 := mul_le_mul_of_nonneg_left hox hK1
    have t5 := mul_nonneg hK1 hρ0.le
    linarith
  have b1 : |z * (x - y) * (x - y) / (ρ * ρ)| ≤ (K + 2) * |x - y| := by
    rw [abs_div, abs_of_pos hρ0, div_le_iff₀ hρ0, abs_mul, abs_mul, abs_of_nonneg hz0]
    have := mul_le_mul_of_nonneg_right b0 (abs_nonneg (x - y))
    linarith
  refine ⟨by rw [abs_neg]; exact b1, b1, ?_⟩
  rw [abs_div, abs_of_pos hρ0, div_le_iff₀ hρ0, abs_mul, abs_mul]
  have t1 : |x + z| ≤ |x| + z := by
    have := abs_add_le x z
    rwa [abs_of_nonneg hz0] at this
  have t2 : |o| * |x + z| ≤ (K + 2) * (ρ * ρ) := by
    have g1 : |o| * z ≤ |o| * ((K + 1) * |o|) := mul_le_mul_of_nonneg_left hzK (abs_nonneg o)
    have g2 := mul_le_mul_of_nonneg_left t1 (abs_nonneg o)
    have g3 := mul_le_mul_of_nonneg_left hoo hK1
    have g4 : |o| * ((K + 1) * |o|) = (K + 1) * (o * o) := by rw [← hao]; ring
    linarith
  have := mul_le_mul_of_nonneg_right t2 (abs_nonneg (x - y))
  linarith

/-- The error of a computed `2 × 2` block against its rotation by an inexact eigenvector `(x, o)`. -/
theorem two_rot_err {n s : Nat} (hs : s + 1 < n) {d e : Nat → ℝ} (b2 : ∀ k, k + 1 = s → e k = 0) (b3 : e (s + 1) = 0)
    {L0 L1 l0 l1 x ρ K μ ν : ℝ} (hK : 0 ≤ K) (hν : 0 ≤ ν) (c1 : L0 + L1 = d s + d (s + 1)) (hy : d (s + 1) ≤ L0) (hz : d s ≤ L0)
    (hyz : (L0 - d s) * (L0 - d (s + 1)) = e s * e s) (hc : d (s + 1) - d s ≤ K * |e s|) (hρ : 0 < ρ)
    (hρ2 : ρ * ρ = x * x + e s * e s) (h0 : |l0 - L0| ≤ μ) (h1 : |l1 - L1| ≤ μ)
    (hx : |x - (L0 - d (s + 1))| ≤ ν) :
    frob (tridiag n (fun k => if k = s + 1 then l1 else if k = s then l0 else d k) (zeroAt e s) -
      rotM n s (s + 1) (x / ρ) (-(e s / ρ)) * tridiag n d e * (rotM n s (s + 1) (x / ρ) (-(e s / ρ)))ᵀ) ≤
      2 * ((K + 2) * ν + μ) := by
  obtain ⟨s1, s2, s3⟩ := two_scalars hK hy hz hyz hc hρ hρ2
  have hμ : 0 ≤ μ := (abs_nonneg _).trans h0
  have hKν := mul_le_mul_of_nonneg_left hx (by linarith : 0 ≤ K + 2)
  have hKν0 : 0 ≤ (K + 2) * ν := mul_nonneg (by linarith) hν
  rw [← c1, add_sub_cancel_left] at s2
  obtain ⟨D0, hD0⟩ : ∃ D0, D0 = x / ρ * (x / ρ) * d s + -(e s / ρ) * -(e s / ρ) * d (s + 1) -
    2 * (x / ρ * -(e s / ρ) * e s) := ⟨_, rfl⟩
  obtain ⟨D1, hD1⟩ : ∃ D1, D1 = -(e s / ρ) * -(e s / ρ) * d s + x / ρ * (x / ρ) * d (s + 1) +
    2 * (x / ρ * -(e s / ρ) * e s) := ⟨_, rfl⟩
  obtain ⟨F, hF⟩ : ∃ F, F = x / ρ * -(e s / ρ) * (d s - d (s + 1)) +
    e s * (x / ρ * (x / ρ) - -(e s / ρ) * -(e s / ρ)) := ⟨_, rfl⟩
  rw [← hD0] at s1
  rw [← hD1] at s2
  rw [← hF] at s3
  have hm : rotM n s (s + 1) (x / ρ) (-(e s / ρ)) * tridiag n d e * (rotM n s (s + 1) (x / ρ) (-(e s / ρ)))ᵀ =
      tridiag n (fun k => if k = s + 1 then D1 else if k = s then D0 else d k) (fun k => if k = s then F else e k) := by
    rw [← triB_zero n d _ s, ← triB_zero n (fun k => if k = s + 1 then D1 else if k = s then D0 else d k) _ (s + 1)]
    apply sweep_matrix hs
    · intro k k1 k2; simp only [if_neg k1, if_neg k2]
    · simp only [if_true, if_neg (show ¬ s = s + 1 by omega)]; rw [hD0]
    · simp only [if_true]; rw [hD1]
    · intro k k1 k2 k3; simp only [if_neg k1]
    · intro k k1
      simp only [if_neg (show ¬ k = s by omega), b2 k k1]; ring
    · intro k k1; rw [b2 k k1]; ring
    · simp only [if_true]; rw [hF]
    · simp only [if_neg (show ¬ s + 1 = s by omega), b3]; ring
    · rw [b3]; ring
  rw [hm]
  apply frob_two hs (by linarith)
  · intro k k1 k2; simp only [if_neg k1, if_neg k2]
  · intro k k1; simp only [zeroAt, if_neg k1]
  · simp only [if_true, if_neg (show ¬ s = s + 1 by omega)]
    have := abs_sub_le l0 L0 D0
    rw [abs_sub_comm] at s1
    linarith
  · simp only [if_true]
    have := abs_sub_le l1 L1 D1
    rw [abs_sub_comm] at s2
    linarith
  · simp only [zeroAt, if_true, zero_sub, abs_neg]
    linarith

/-- The computed eigenvector of a `2 × 2` block. -/
theorem two_x_err {a b o L0 l0 x β γ u : ℝ} (ha : |a| ≤ β) (hb : |b| ≤ β) (ho : |o| ≤ β) (haL : a ≤ L0)
    (hyz : (L0 - a) * (L0 - b) = o * o) (h0 : |l0 - L0| ≤ 4 * γ * β) (hg : 0 ≤ γ) (hu0 : 0 ≤ u) (hu : u ≤ γ / 10)
    (hu1 : u ≤ 1 / 10) (hx : |x - (l0 - b)| ≤ u * |l0 - b|) : |x - (L0 - b)| ≤ 5 * γ * β := by
  have hβ : 0 ≤ β := (abs_nonneg _).trans ha
  have hoo : o * o ≤ β * β := by
    rw [← abs_mul_abs_self o]
    exact mul_le_mul ho ho (abs_nonneg _) hβ
  rw [abs_le] at ha hb
  have g2 : |L0| ≤ 3 * β := by
    rw [abs_le]
    refine ⟨by linarith [ha.1], ?_⟩
    by_contra hcon
    push Not at hcon
    have p1 : 2 * β < L0 - a := by linarith [ha.2]
    have p2 : 2 * β < L0 - b := by linarith [hb.2]
    have p3 := mul_lt_mul'' p1 p2 (by linarith) (by linarith)
    nlinarith
  have g3 : |l0 - b| ≤ 4 * β + 4 * γ * β := by
    have q1 := abs_sub_le l0 L0 b
    have q2 := abs_sub L0 b
    have q3 := abs_le.2 hb
    linarith
  have g6 : 0 ≤ γ * β := mul_nonneg hg hβ
  have q1 := mul_le_mul_of_nonneg_left g3 hu0
  have q2 := mul_le_mul_of_nonneg_right hu (by linarith : 0 ≤ 4 * β)
  have q3 := mul_le_mul_of_nonneg_right hu1 (by linarith : 0 ≤ 4 * γ * β)
  have g5 := abs_add_le (x - (l0 - b)) (l0 - L0)
  rw [show x - (l0 - b) + (l0 - L0) = x - (L0 - b) by ring] at g5
  linarith

/-! ## The main loop -/

/-- The invariant of the main loop. -/
structure EigR (n : Nat) (A O : Matrix (Fin n) (Fin n) ℝ) (G H : ℝ) (st : EigState (Rnd R)) : Prop where
  sim : SimQ n A (tridiag n (dv st.diag) (effV st.off st.end)) O st.q G H
  start0 : st.start ≠ 0 → (st.off.get (st.start - 1)).v = 0
  end0 : st.end = st.start → st.end = 0

theorem EigR.of_delim {n : Nat} {A O : Matrix (Fin n) (Fin n) ℝ} {eps : Rnd R} {G H : ℝ} (heps : 0 ≤ R.eps)
    (he : eps.v = R.eps) (hG : 0 ≤ G) {mid st : EigState (Rnd R)} (hlt : mid.end < n)
    (h1 : SimQ n A (tridiag n (dv mid.diag) (effV mid.off mid.end)) O mid.q G H)
    (hd : st.diag = mid.diag) (hq : st.q = mid.q)
    (ds : DelimSpec mid.diag mid.off eps mid.end st.off st.start st.end) :
    EigR n A O (G * (1 + deflErr R) ^ mid.end) H st := by
  refine ⟨?_, ?_, ?_⟩
  · rw [hd, hq]; exact h1.delim hG heps he (by omega) ds
  · intro hs
    rw [ds.get, if_pos (by omega)]
    rfl
  · intro he
    by_contra h0
    have := ds.lt h0
    omega

/-- State of the main loop before `delimit_subproblem`. -/
def EigMidR (n : Nat) (A O : Matrix (Fin n) (Fin n) ℝ) (ρ G H : ℝ) (st : EigState (Rnd R)) : Prop :=
  st.end < n ∧ ∃ G' , 0 ≤ G' ∧
    SimQ n A (tridiag n (dv st.diag) (effV st.off st.end)) O st.q G' (H * (1 + rotErr R) ^ n) ∧
    G' * (1 + deflErr R) ^ st.end ≤ G * ((1 + ρ) * (1 + deflErr R)) ^ n

theorem mid_le {n k : Nat} {G ρ δ : ℝ} (hk : k ≤ n) (hn : n ≠ 0) (hG : 0 ≤ G) (hρ : 0 ≤ ρ) (hδ : 0 ≤ δ) :
    (1 + ρ) * G * (1 + δ) ^ k ≤ G * ((1 + ρ) * (1 + δ)) ^ n := by
  rw [mul_pow]
  have h2 : 1 + ρ ≤ (1 + ρ) ^ n := le_self_pow₀ (by linarith) hn
  have h3 : (1 + δ) ^ k ≤ (1 + δ) ^ n := pow_le_pow_right₀ (by linarith) hk
  calc (1 + ρ) * G * (1 + δ) ^ k = G * ((1 + ρ) * (1 + δ) ^ k) := by ring
    _ ≤ _ := by gcongr

/-- The state in front of a `2 × 2` block. -/
theorem EigR.block {n : Nat} {A O : Matrix (Fin n) (Fin n) ℝ} {eps : Rnd R} {G H : ℝ}
    (he0 : 0 ≤ eps.v) {st : EigState (Rnd R)} (h : EigR n A O G H st)
    (hsh : EigShape n eps st) (hs : st.start + 1 = st.end) :
    (effV st.off (st.start + 1) st.start ≠ 0) ∧ (∀ k, k + 1 = st.start → effV st.off (st.start + 1) k = 0) ∧
    effV st.off (st.start + 1) (st.start + 1) = 0 ∧
    SimQ n A (tridiag n (dv st.diag) (effV st.off (st.start + 1))) O st.q G H ∧
    |(st.diag.get st.start).v| ≤ frob (tridiag n (dv st.diag) (effV st.off (st.start + 1))) ∧
    |(st.diag.get (st.start + 1)).v| ≤ frob (tridiag n (dv st.diag) (effV st.off (st.start + 1))) ∧
    |(st.off.get st.start).v| ≤ frob (tridiag n (dv st.diag) (effV st.off (st.start + 1))) := by
  have hlt := hsh.lt
  have hsim := h.sim
  rw [← hs] at hsim hlt
  refine ⟨?_, ?_, ?_, hsim, ?_, ?_, ?_⟩
  · have := bigOff_rnd he0 (hsh.big (by omega))
    rw [← hs, Nat.add_sub_cancel] at this
    rw [effV, if_pos (by omega)]
    exact this
  · intro k hk
    rw [effV, if_pos (by omega)]
    have := h.start0 (by omega)
    rwa [show st.start - 1 = k by omega] at this
  · rw [effV, if_neg (by omega)]
  · have := abs_le_frob (tridiag n (dv st.diag) (effV st.off (st.start + 1))) ⟨st.start, by omega⟩ ⟨st.start, by omega⟩
    simpa [tridiag, dv] using this
  · have := abs_le_frob (tridiag n (dv st.diag) (effV st.off (st.start + 1))) ⟨st.start + 1, by omega⟩
      ⟨st.start + 1, by omega⟩
    simpa [tridiag, dv] using this
  · have := abs_le_frob (tridiag n (dv st.diag) (effV st.off (st.start + 1))) ⟨st.start + 1, by omega⟩
      ⟨st.start, by omega⟩
    simpa [tridiag, effV] using this

/-- One `2 × 2` block. -/
theorem EigR.two {n : Nat} {A O : Matrix (Fin n) (Fin n) ℝ} {eps : Rnd R} {G H : ℝ} (heps : 0 ≤ R.eps)
    (he : eps.v = R.eps) (hu : 10 * R.uw < 1) (hO : Oᵀ * O = 1) (hG : 0 ≤ G) (hH : 0 ≤ H) {st : EigState (Rnd R)}
    (h : EigR n A O G H st) (hsh : EigShape n eps st) (hs : st.start + 1 = st.end) :
    Succeeds (eig2x2 eps st) (fun mid => ∃ O', O'ᵀ * O' = 1 ∧ EigMidR n A O' (rotErr R) G H mid) := by
  have hlt := hsh.lt
  have hr := rotErr_nonneg hu
  have hdf := deflErr_nonneg heps
  have hg := gam_nonneg (n := 10) R.uw_nonneg (by exact_mod_cast hu)
  have he0 : 0 ≤ eps.v := by rw [he]; exact heps
  obtain ⟨b1, b2, b3, hsim, ha, hb, ho⟩ := h.block he0 hsh hs
  obtain ⟨l0, l1, L0, L1, hc, c1, c2, -, -, c3⟩ := compute2x2_rnd hu (st.diag.get st.start) (st.off.get st.start)
    (st.diag.get (st.start + 1))
  rw [eig2x2_eq hsh hs, hc]
  simp only
  have hen : st.end - 1 = st.start := by omega
  obtain ⟨W, hW, hT⟩ := two_matrix (n := n) (s := st.start) (d := dv st.diag) (e := effV st.off (st.start + 1)) (by omega)
    b1 b2 b3 c1 (by rw [effV, if_pos (by omega)]; exact c2)
  obtain ⟨f0, f1⟩ := c3 _ ha hb ho
  obtain ⟨X, hX⟩ : ∃ X, X = tridiag n (dv st.diag) (effV st.off (st.start + 1)) := ⟨_, rfl⟩
  rw [← hX] at hsim f0 f1 hT
  have hd : frob (tridiag n (dv ((st.diag.upd st.start l0).upd (st.start + 1) l1)) (effV st.off st.start) -
      W * X * Wᵀ) ≤ rotErr R * frob X := by
    rw [hT, ← effV_succ]
    have := frob_two (n := n) (s := st.start) (by omega) (d := fun k => if k = st.start then L0
      else if k = st.start + 1 then L1 else dv st.diag k)
      (d' := dv ((st.diag.upd st.start l0).upd (st.start + 1) l1)) (e := effV st.off st.start)
      (e' := effV st.off st.start) (ε := 4 * gam R.uw 10 * frob X) (mul_nonneg (by linarith) (frob_nonneg _))
      (fun k k1 k2 => by simp only [dv, Arr1.upd_get, if_neg k1, if_neg k2]) (fun _ _ => rfl)
      (by simpa [dv, Arr1.upd_get] using f0) (by simpa [dv, Arr1.upd_get] using f1)
      (by rw [sub_self, abs_zero]; exact mul_nonneg (by linarith) (frob_nonneg _))
    refine this.trans (le_of_eq ?_)
    rw [rotErr]; ring
  have hmid : ∀ (q' : Option (Arr2 (Rnd R))) (V : Matrix (Fin n) (Fin n) ℝ), Vᵀ * V = 1 →
      (∀ Q', q' = some Q' → ∃ Q, st.q = some Q ∧
        frob (toMat n n (Rnd.vals Q') - toMat n n (Rnd.vals Q) * Vᵀ) ≤ rotErr R * frob (toMat n n (Rnd.vals Q))) →
      ∃ O', O'ᵀ * O' = 1 ∧ EigMidR n A O' (rotErr R) G H
        ⟨(st.diag.upd st.start l0).upd (st.start + 1) l1, st.off, q', st.start, st.end - 1⟩ := by
    intro q' V hV hq'
    obtain ⟨O', hO', hsim'⟩ := hsim.switch hO hW hV hr hr hd hq'
    refine ⟨O', hO', by simp only; omega, (1 + rotErr R) * G, by positivity, ?_, ?_⟩
    · simp only [hen]
      refine hsim'.mono le_rfl ?_
      rw [mul_comm]
      exact mul_le_mul_of_nonneg_left (le_self_pow₀ (by linarith) (by omega)) hH
    · exact mid_le (by simp only; omega) (by omega) hG hr hdf
  split
  · rename_i rot nn hn
    obtain ⟨ρ, -, -, t1, t2, t3⟩ := tryNew_rnd he0 hn
    refine hmid _ (rotM n st.start (st.start + 1) _ (-_)) (rotM_orth (by omega) (by omega) (by omega) ?_)
      (rot_opt hsh.q (by omega) hu ?_ t2 (by rw [neg_neg]; exact t3)) <;> rw [neg_mul_neg] <;> exact t1
  · refine hmid _ 1 (by simp) fun Q hQ => ⟨Q, hQ, ?_⟩
    simpa using mul_nonneg hr (frob_nonneg _)

/-- One `2 × 2` block `[[a, o], [o, b]]` with `b - a ≤ K |o|`. -/
theorem EigR.two_good {n : Nat} {A O : Matrix (Fin n) (Fin n) ℝ} {eps : Rnd R} {G H K : ℝ} (heps : 0 ≤ R.eps)
    (he : eps.v = R.eps) (hu : 10 * R.uw < 1) (hA : A = 0 ∨ 1 ≤ frob A) (hO : Oᵀ * O = 1) (hG : 1 ≤ G) (hH : 0 ≤ H)
    (hK : 0 ≤ K) {st : EigState (Rnd R)} (h : EigR n A O G H st) (hsh : EigShape n eps st)
    (hs : st.start + 1 = st.end)
    (hcond : (st.diag.get (st.start + 1)).v - (st.diag.get st.start).v ≤ K * |(st.off.get st.start).v|) :
    Succeeds (eig2x2 eps st) (fun mid => EigMidR n A O (blockErr R K) G H mid) := by
  have hlt := hsh.lt
  have hr := rotErr_nonneg hu
  have hdf := deflErr_nonneg heps
  have hg := gam_nonneg (n := 10) R.uw_nonneg (by exact_mod_cast hu)
  have he0 : 0 ≤ eps.v := by rw [he]; exact heps
  have hbe : 0 ≤ blockErr R K := by
    unfold blockErr; positivity
  obtain ⟨b1, b2, b3, hsim, ha, hb, ho⟩ := h.block he0 hsh hs
  obtain ⟨l0, l1, L0, L1, hc, c1, c2, c4, c5, c3⟩ := compute2x2_rnd hu (st.diag.get st.start) (st.off.get st.start)
    (st.diag.get (st.start + 1))
  rw [eig2x2_eq hsh hs, hc]
  simp only
  have hen : st.end - 1 = st.start := by omega
  obtain ⟨f0, f1⟩ := c3 _ ha hb ho
  obtain ⟨X, hX⟩ : ∃ X, X = tridiag n (dv st.diag) (effV st.off (st.start + 1)) := ⟨_, rfl⟩
  rw [← hX] at hsim f0 f1 ha hb ho
  have hX0 := frob_nonneg X
  have hgX : 0 ≤ gam R.uw 10 * frob X := mul_nonneg hg hX0
  have hoe : effV st.off (st.start + 1) st.start = (st.off.get st.start).v := by rw [effV, if_pos (by omega)]
  have hdu : dv ((st.diag.upd st.start l0).upd (st.start + 1) l1) = fun k => if k = st.start + 1 then l1.v
      else if k = st.start then l0.v else dv st.diag k := by
    funext k
    simp only [dv, Arr1.upd_get]
    split_ifs <;> rfl
  have hmid : ∀ q', SimQ n A (tridiag n (dv ((st.diag.upd st.start l0).upd (st.start + 1) l1)) (effV st.off st.start)) O
      q' ((1 + blockErr R K) * G) ((1 + rotErr R) * H) → EigMidR n A O (blockErr R K) G H
        ⟨(st.diag.upd st.start l0).upd (st.start + 1) l1, st.off, q', st.start, st.end - 1⟩ := by
    intro q' hsim'
    refine ⟨by simp only; omega, (1 + blockErr R K) * G, by positivity, ?_, ?_⟩
    · simp only [hen]
      refine hsim'.mono le_rfl ?_
      rw [mul_comm]
      exact mul_le_mul_of_nonneg_left (le_self_pow₀ (by linarith) (by omega)) hH
    · exact mid_le (by simp only; omega) (by omega) (by linarith) hbe hdf
  have huw : R.u ≤ R.uw := le_max_left R.u R.w
  have hug : R.u ≤ gam R.uw 10 / 10 := by
    have h3 : 10 * R.uw ≤ gam R.uw 10 := by
      unfold gam
      have h4 := R.uw_nonneg
      rw [le_div_iff₀ (by push_cast; linarith)]
      push_cast
      nlinarith
    linarith
  split
  · rename_i rot nn hn
    obtain ⟨ρ, r1, r2, t1, t2, t3⟩ := tryNew_rnd he0 hn
    refine hmid _ ?_
    rw [Rnd.sub_v] at r2 t1 t2
    have hδ := two_x_err ha hb ho c4 c2 f0 hg R.u_nonneg hug (by linarith)
      (R.rnd_err (l0.v - (st.diag.get (st.start + 1)).v))
    have t1' : R.rnd (l0.v - (st.diag.get (st.start + 1)).v) / ρ * (R.rnd (l0.v - (st.diag.get (st.start + 1)).v) / ρ) +
        -((st.off.get st.start).v / ρ) * -((st.off.get st.start).v / ρ) = 1 := by
      rw [neg_mul_neg]; exact t1
    refine hsim.step hO (rotM_orth (i := st.start) (j := st.start + 1) (by omega) (by omega) (by omega) t1') hbe hr ?_
      (rot_opt hsh.q (by omega) hu t1' t2 (by rw [neg_neg]; exact t3))
    rw [hdu, effV_succ, ← hoe]
    nth_rewrite 1 [hX]
    rw [← hoe] at c2 hcond r2
    refine (two_rot_err (n := n) (s := st.start) (d := dv st.diag) (e := effV st.off (st.start + 1)) (by omega) b2 b3 hK
      (by positivity) c1 c5 c4 c2 hcond r1 r2 f0 f1 hδ).trans ?_
    have g1 := mul_nonneg (mul_nonneg (by linarith : 0 ≤ 3 * (K + 1)) heps) hX0
    have g2 := mul_nonneg hK hgX
    unfold blockErr rotErr
    nlinarith
  · rename_i hn
    refine hmid _ ?_
    have hlow := tryNew_rnd_none hn
    have hww : R.w ≤ R.uw := le_max_right R.u R.w
    have hoS : |(st.off.get st.start).v| ≤ Real.sqrt ((l0 - st.diag.get (st.start + 1)).v * (l0 - st.diag.get (st.start + 1)).v +
        (st.off.get st.start).v * (st.off.get st.start).v) := by
      apply Real.abs_le_sqrt
      rw [pow_two]
      linarith [mul_self_nonneg (l0 - st.diag.get (st.start + 1)).v]
    have hoeps : |(st.off.get st.start).v| ≤ 10 / 9 * R.eps := by
      rw [he] at hlow
      have h1 := mul_le_mul_of_nonneg_right (by linarith : (9 : ℝ) / 10 ≤ 1 - R.w) ((abs_nonneg _).trans hoS)
      linarith
    have hA1 : 1 ≤ frob A := by
      rcases hA with rfl | hA
      · exfalso
        have h1 := hsim.sim.norm
        rw [frob_zero, mul_zero] at h1
        have h2 := ho.trans h1
        exact b1 (by rw [hoe]; exact abs_nonpos_iff.1 h2)
      · exact hA
    have hzK : L0 - (st.diag.get st.start).v ≤ (K + 1) * |(st.off.get st.start).v| :=
      two_z_le hK c2 (by linarith)
    have hz0 : 0 ≤ L0 - (st.diag.get st.start).v := by linarith
    have hε1 : (K + 1) * |(st.off.get st.start).v| ≤ (K + 1) * (10 / 9 * R.eps) :=
      mul_le_mul_of_nonneg_left hoeps (by linarith)
    have hKe : 0 ≤ (K + 1) * (10 / 9 * R.eps) := by positivity
    have hε2 : |(st.off.get st.start).v| ≤ (K + 1) * (10 / 9 * R.eps) := by
      have := mul_nonneg hK (abs_nonneg (st.off.get st.start).v)
      linarith
    have hXA := hsim.sim.norm
    refine (hsim.shift (ε := blockErr R K) ?_).mono le_rfl (le_mul_of_one_le_left hH (by linarith))
    rw [hdu, effV_succ]
    nth_rewrite 1 [hX]
    refine (frob_two (n := n) (s := st.start) (d := dv st.diag) (e := effV st.off (st.start + 1))
      (ε := (K + 1) * (10 / 9 * R.eps) + 4 * gam R.uw 10 * frob X) (by omega) (by linarith) ?_ ?_ ?_ ?_ ?_).trans ?_
    · intro k k1 k2; simp only [if_neg k1, if_neg k2]
    · intro k k1; simp only [zeroAt, if_neg k1]
    · simp only [if_true, if_neg (show ¬ st.start = st.start + 1 by omega)]
      have := abs_sub_le l0.v L0 (st.diag.get st.start).v
      rw [abs_of_nonneg hz0] at this
      exact this.trans (by linarith)
    · simp only [if_true]
      have := abs_sub_le l1.v L1 (st.diag.get (st.start + 1)).v
      rw [show L1 - (st.diag.get (st.start + 1)).v = -(L0 - (st.diag.get st.start).v) by linarith, abs_neg,
        abs_of_nonneg hz0] at this
      exact this.trans (by linarith)
    · simp only [zeroAt, if_true, zero_sub, abs_neg, hoe]
      linarith
    · have g1 := mul_le_mul_of_nonneg_left hXA hg
      have g2 : 1 ≤ G * frob A := one_le_mul_of_one_le_of_one_le hG hA1
      have g3 := mul_le_mul_of_nonneg_left g2 (by positivity : 0 ≤ 3 * (K + 1) * R.eps)
      have g4 := mul_nonneg hK (mul_nonneg hg (by linarith : 0 ≤ G * frob A))
      have g5 : 0 ≤ gam R.uw 10 * (G * frob A) := mul_nonneg hg (by linarith)
      have g6 : 0 ≤ (K + 1) * R.eps := by positivity
      unfold blockErr rotErr
      linarith


/-- One sweep. -/
theorem EigR.sweep {n : Nat} {A O : Matrix (Fin n) (Fin n) ℝ} {eps : Rnd R} {ρ G H : ℝ} (heps : 0 ≤ R.eps)
    (he : eps.v = R.eps) (hu : 10 * R.uw < 1) (hρ : rotErr R ≤ ρ) (hO : Oᵀ * O = 1) (hG : 0 ≤ G) (hH : 0 ≤ H)
    {st : EigState (Rnd R)} (h : EigR n A O G H st)
    (hsh : EigShape n eps st) (hs : st.start + 1 < st.end) (x y : Rnd R) (r : SweepState (Rnd R)) (e : Nat)
    (hr : e = st.end - 1 ∧ NdFloat.le (NdFloat.abs (r.off.get (st.end - 1)))
          (eps * (NdFloat.abs (r.diag.get (st.end - 1)) + NdFloat.abs (r.diag.get st.end))) = true ∨ e = st.end)
    (hl : loopBrk (List.range' st.start (st.end - st.start))
        (⟨st.diag, st.off, st.q, x, y⟩ : SweepState (Rnd R)) (sweepStep st.start st.end) = .ok r) :
    EigMidR n A O ρ G H ⟨r.diag, r.off, r.q, st.start, e⟩ := by
  have hlt := hsh.lt
  have hrt := rotErr_nonneg hu
  have hdf := deflErr_nonneg heps
  have hw := sweep_rnd (n := n) (start := st.start) (e := st.end) (A := A) (G := G) (H := H)
    (s := ⟨st.diag, st.off, st.q, x, y⟩) hu (by omega) hlt ⟨hsh.diag, hsh.off, hsh.q⟩ hO h.sim hG hH h.start0
  rw [hl] at hw
  obtain ⟨-, hsim, -⟩ := hw
  rw [triB_zero] at hsim
  have hp : (1 + rotErr R) ^ (st.end - st.start) ≤ (1 + rotErr R) ^ n := pow_le_pow_right₀ (by linarith) (by omega)
  have hp' : (1 + rotErr R) ^ n ≤ (1 + ρ) ^ n := pow_le_pow_left₀ (by linarith) (by linarith) n
  have hsim' := hsim.mono le_rfl (mul_le_mul_of_nonneg_left hp hH)
  have h3 : (1 + deflErr R) ^ st.end ≤ (1 + deflErr R) ^ n := pow_le_pow_right₀ (by linarith) (by omega)
  have hfin : G * (1 + rotErr R) ^ (st.end - st.start) * (1 + deflErr R) ^ st.end ≤
      G * ((1 + ρ) * (1 + deflErr R)) ^ n := by
    rw [mul_pow]
    calc _ = G * ((1 + rotErr R) ^ (st.end - st.start) * (1 + deflErr R) ^ st.end) := by ring
      _ ≤ G * ((1 + ρ) ^ n * (1 + deflErr R) ^ n) := by
        refine mul_le_mul_of_nonneg_left (mul_le_mul (hp.trans hp') h3 (by positivity) ?_) hG
        exact pow_nonneg (by linarith) n
  refine ⟨?_, ?_⟩
  · rcases hr with ⟨rfl, _⟩ | rfl <;> simp only <;> omega
  rcases hr with ⟨rfl, hle⟩ | rfl
  · refine ⟨G * (1 + rotErr R) ^ (st.end - st.start) * (1 + deflErr R), by positivity, ?_, ?_⟩
    · simp only
      rw [effV_succ, show st.end - 1 + 1 = st.end by omega]
      refine hsim'.drop heps (by omega) ?_
      rw [effV, if_pos (by omega), show st.end - 1 + 1 = st.end by omega, add_comm |dv r.diag st.end|, ← he]
      simp only [Rnd.le_v, Rnd.mul_v, Rnd.add_v, Rnd.abs_v, decide_eq_true_eq] at hle
      exact hle.trans (defl_le (by rw [he]; exact heps))
    · simp only
      rw [mul_assoc _ (1 + deflErr R), ← pow_succ', show st.end - 1 + 1 = st.end by omega]
      exact hfin
  · exact ⟨G * (1 + rotErr R) ^ (st.end - st.start), by positivity, hsim', hfin⟩

/-- One iteration, for matrices `O` in a set that the `2 × 2` step stays in. -/
theorem EigR.step {n : Nat} {A O : Matrix (Fin n) (Fin n) ℝ} {eps : Rnd R} {ρ G H : ℝ} (heps : 0 ≤ R.eps)
    (he : eps.v = R.eps) (hu : 10 * R.uw < 1) (hρ : rotErr R ≤ ρ) {S : Set (Matrix (Fin n) (Fin n) ℝ)}
    (hS : ∀ O ∈ S, Oᵀ * O = 1) (hO : O ∈ S) (hG : 0 ≤ G) (hH : 0 ≤ H) {st : EigState (Rnd R)} (h : EigR n A O G H st)
    (hsh : EigShape n eps st) (hne : st.end ≠ st.start)
    (h2 : st.start + 1 = st.end → Succeeds (eig2x2 eps st) (fun mid => ∃ O' ∈ S, EigMidR n A O' ρ G H mid)) :
    Succeeds (eigStep eps st) (fun st' => EigShape n eps st' ∧ ∃ O' ∈ S,
      EigR n A O' (G * ((1 + ρ) * (1 + deflErr R)) ^ n) (H * (1 + rotErr R) ^ n) st') := by
  refine wp_conseq (wp_eigStep hsh hne (fun mid => ∃ O' ∈ S, EigMidR n A O' ρ G H mid) h2 ?_) ?_
  · intro r e hs _ hr hl
    exact ⟨O, hO, h.sweep heps he hu hρ (hS O hO) hG hH hsh hs _ _ r e hr hl⟩
  · rintro st' ⟨h1, mid, ⟨O', hO', m1, G', m3, m4, m5⟩, -, -, hd, hq, ds⟩
    have := EigR.of_delim heps he m3 m1 m4 hd hq ds
    exact ⟨h1, O', hO', this.sim.mono m5 le_rfl, this.start0, this.end0⟩

/-- The main loop, on runs whose states satisfy `V`. -/
theorem EigR.loop {n : Nat} {A : Matrix (Fin n) (Fin n) ℝ} {eps : Rnd R} {ρ : ℝ} (heps : 0 ≤ R.eps)
    (he : eps.v = R.eps) (hu : 10 * R.uw < 1) (hρ : rotErr R ≤ ρ) {S : Set (Matrix (Fin n) (Fin n) ℝ)}
    (hS : ∀ O ∈ S, Oᵀ * O = 1) {V : EigState (Rnd R) → Prop}
    (hV : ∀ st st', V st → st.end ≠ st.start → eigStep eps st = .ok st' → V st')
    (h2 : ∀ O ∈ S, ∀ (G H : ℝ) (st : EigState (Rnd R)), 1 ≤ G → 0 ≤ H → EigR n A O G H st → EigShape n eps st → V st →
      st.start + 1 = st.end → Succeeds (eig2x2 eps st) (fun mid => ∃ O' ∈ S, EigMidR n A O' ρ G H mid))
    (fuel : Nat) : ∀ {O : Matrix (Fin n) (Fin n) ℝ} {G H : ℝ} {st : EigState (Rnd R)}, O ∈ S → 1 ≤ G → 0 ≤ H →
    EigR n A O G H st → EigShape n eps st → V st →
    wp (eigLoop eps fuel st) (fun st' => EigShape n eps st' ∧ st'.end = st'.start ∧ ∃ O' ∈ S,
      EigR n A O' (G * ((1 + ρ) * (1 + deflErr R)) ^ (n * fuel)) (H * (1 + rotErr R) ^ (n * fuel)) st')
      (fun e => e = .fuel) := by
  have hrt := rotErr_nonneg hu
  have hdf := deflErr_nonneg heps
  have hg1 : 1 ≤ (1 + ρ) * (1 + deflErr R) := one_le_mul_of_one_le_of_one_le (by linarith) (by linarith)
  have mono : ∀ k {O} {G H : ℝ} {st : EigState (Rnd R)}, 0 ≤ G → 0 ≤ H → EigR n A O G H st →
      EigR n A O (G * ((1 + ρ) * (1 + deflErr R)) ^ k) (H * (1 + rotErr R) ^ k) st := by
    intro k O G H st hG hH h
    exact ⟨h.sim.mono (le_mul_of_one_le_right hG (one_le_pow₀ hg1))
      (le_mul_of_one_le_right hH (one_le_pow₀ (by linarith))), h.start0, h.end0⟩
  induction fuel with
  | zero =>
    intro O G H st hO hG hH h hsh hv
    unfold eigLoop
    split
    · rename_i hh; exact ⟨hsh, hh, O, hO, mono _ (by linarith) hH h⟩
    · rfl
  | succ k ih =>
    intro O G H st hO hG hH h hsh hv
    unfold eigLoop
    split
    · rename_i hh; exact ⟨hsh, hh, O, hO, mono _ (by linarith) hH h⟩
    · rename_i hh
      have hstep := h.step heps he hu hρ hS hO (by linarith) hH hsh hh (h2 O hO G H st hG hH h hsh hv)
      cases hx : eigStep eps st with
      | error e => rw [hx] at hstep; exact hstep.elim
      | ok st' =>
        rw [hx] at hstep
        obtain ⟨s1, O', hO', s2⟩ := hstep
        rw [ok_bind]
        refine wp_conseq (ih hO' (one_le_mul_of_one_le_of_one_le hG (one_le_pow₀ hg1)) (by positivity) s2 s1
          (hV st st' hv hh hx)) ?_
        rintro st'' ⟨g1, g2, O'', hO'', g3⟩
        rw [mul_assoc, ← pow_add, mul_assoc H, ← pow_add, show n + n * k = n * (k + 1) by ring] at g3
        exact ⟨g1, g2, O'', hO'', g3⟩

/-! ## The whole computation -/

theorem amax_rnd (a : Arr2 (Rnd R)) : a.amax.v = (Rnd.vals a).amax := by
  have key : ∀ (l : List (Rnd R)) (b : Rnd R),
      (l.foldl NdFloat.max b).v = (l.map fun x => x.v).foldl max b.v := by
    intro l
    induction l with
    | nil => intro b; rfl
    | cons x l ih => intro b; simp only [List.foldl_cons, List.map_cons, ih, Rnd.max_v]
  unfold Arr2.amax
  rw [key, List.map_map]
  have e : ((Rnd.vals a).toList.map NdFloat.abs : List ℝ) = a.toList.map ((fun x : Rnd R => x.v) ∘ NdFloat.abs) := by
    unfold Arr2.toList
    simp only [List.map_flatMap, List.map_map]
    rfl
  rw [e]
  rfl

/-- Scaling by the largest entry: `A = m B`, and the scaled matrix is `B` up to rounding. -/
theorem scaleDown_rnd {n : Nat} (a : Arr2 (Rnd R)) (ha : HasShape a n n) (hn : 1 ≤ n) :
    ∃ B : Matrix (Fin n) (Fin n) ℝ, 0 ≤ a.amax.v ∧ toMat n n (Rnd.vals a) = a.amax.v • B ∧
      HasShape (a.scaleDown a.amax) n n ∧
      frob (toMat n n (Rnd.vals (a.scaleDown a.amax)) - B) ≤ R.u * frob B ∧
      ((toMat n n (Rnd.vals a)).IsSymm → (toMat n n (Rnd.vals (a.scaleDown a.amax))).IsSymm) ∧
      (B = 0 ∨ 1 ≤ frob B) := by
  have hv : HasShape (Rnd.vals a) n n := ha
  have h0 := amax_nonneg (Rnd.vals a) (by rw [hv.1]; exact hn) (by rw [hv.2]; exact hn)
  rw [← amax_rnd] at h0
  unfold Arr2.scaleDown
  by_cases hz : a.amax.v = 0
  · rw [if_pos (by simpa using hz)]
    obtain ⟨-, s2, -, -⟩ := scaleDown_real (Rnd.vals a) hv hn hn
    have hA : toMat n n (Rnd.vals a) = 0 := by rw [s2, ← amax_rnd, hz, zero_smul]
    refine ⟨0, h0, by rw [hA, smul_zero], ha, ?_, fun h => h, Or.inl rfl⟩
    rw [hA]; simp
  · rw [if_neg (by simpa using hz)]
    refine ⟨Matrix.of fun i j => (a.get i j).v / a.amax.v, h0, ?_, ha, ?_, ?_, Or.inr ?_⟩
    · ext i j
      simp only [Matrix.smul_apply, Matrix.of_apply, smul_eq_mul, toMat_apply, Rnd.vals]
      field_simp
    · rw [show R.u * frob (Matrix.of fun i j : Fin n => (a.get i j).v / a.amax.v) =
        frob (R.u • Matrix.of fun i j : Fin n => (a.get i j).v / a.amax.v) by
          rw [frob_smul, abs_of_nonneg R.u_nonneg]]
      refine frob_mono fun i j => ?_
      simp only [Matrix.sub_apply, toMat_apply, Rnd.vals, Arr2.map, Matrix.of_apply, Rnd.div_v, Matrix.smul_apply,
        smul_eq_mul]
      rw [abs_mul, abs_of_nonneg R.u_nonneg]
      exact R.rnd_err _
    · intro hs
      ext i j
      have := congrFun (congrFun hs i) j
      simp only [Matrix.transpose_apply, toMat_apply, Rnd.vals, Arr2.map, Rnd.div_v] at this ⊢
      rw [this]
    · obtain ⟨i, j, hi, hj, hij⟩ := (amax_real (Rnd.vals a) (by rw [hv.1]; exact hn) (by rw [hv.2]; exact hn)).2
      rw [hv.1] at hi
      rw [hv.2] at hj
      have := abs_le_frob (Matrix.of fun i j : Fin n => (a.get i j).v / a.amax.v) ⟨i, hi⟩ ⟨j, hj⟩
      rw [← amax_rnd] at hij
      simp only [Matrix.of_apply, abs_div, abs_of_nonneg h0] at this
      simp only [Rnd.vals] at hij
      rwa [hij, div_self hz] at this

theorem uw_lt {n : Nat} (hu : ((10 * n + 56 : Nat) : ℝ) * R.u < 1) (hw : 10 * R.w < 1) : 10 * R.uw < 1 := by
  have h1 : 10 * R.u < 1 := lt_of_le_of_lt (mul_le_mul_of_nonneg_right
    (by exact_mod_cast (by omega : 10 ≤ 10 * n + 56)) R.u_nonneg) hu
  unfold StdModel.uw
  rcases max_choice R.u R.w with h | h <;> rw [h] <;> assumption

/-- What `symmetric_eig` returns on a symmetric matrix, with the factor `1 + ρ` for the error of an iteration, when the
`2 × 2` steps on states that satisfy `V` stay in the set `S`. -/
theorem symmetricEig_simq {n : Nat} (fuel : Nat) (a : Arr2 (Rnd R)) (ev : Bool) {eps : Rnd R} (he : eps.v = R.eps)
    (heps : 0 ≤ R.eps) (ha : HasShape a n n) (hn : 1 ≤ n) (hs : (toMat n n (Rnd.vals a)).IsSymm)
    (hu : ((10 * n + 56 : Nat) : ℝ) * R.u < 1) (hw : 10 * R.w < 1) (hc : triErr R n ≤ 1) {ρ : ℝ} (hρ : rotErr R ≤ ρ)
    {S : Set (Matrix (Fin n) (Fin n) ℝ)} (hS : ∀ O ∈ S, Oᵀ * O = 1) (hS1 : 1 ∈ S) {V : EigState (Rnd R) → Prop}
    (hV0 : ∀ st, EigStart a ev eps st → V st)
    (hV : ∀ st st', V st → st.end ≠ st.start → eigStep eps st = .ok st' → V st')
    (h2 : ∀ B : Matrix (Fin n) (Fin n) ℝ, B = 0 ∨ 1 ≤ frob B → ∀ O ∈ S, ∀ (G H : ℝ) (st : EigState (Rnd R)), 1 ≤ G →
      0 ≤ H → EigR n B O G H st → EigShape n eps st → V st →
      st.start + 1 = st.end → Succeeds (eig2x2 eps st) (fun mid => ∃ O' ∈ S, EigMidR n B O' ρ G H mid)) :
    wp (symmetricEig fuel a ev eps) (fun r => r.1.len = n ∧ OptShape r.2 n n ∧ r.2.isSome = ev ∧
      ∃ O ∈ S, SimQ n (toMat n n (Rnd.vals a)) (diagonal fun i : Fin n => (r.1.get i).v) O r.2
        ((1 + R.u) ^ 2 * (1 + triErr R n) * ((1 + ρ) * (1 + deflErr R)) ^ (n * (fuel + 1))) (1 + eigOrthErr R n fuel))
      (fun e => e = .fuel) := by
  have hu10 := uw_lt hu hw
  have hu5 : ((5 * n + 31 : Nat) : ℝ) * R.u < 1 := lt_of_le_of_lt
    (mul_le_mul_of_nonneg_right (by exact_mod_cast (by omega : 5 * n + 31 ≤ 10 * n + 56)) R.u_nonneg) hu
  have hrt := rotErr_nonneg hu10
  have hdf := deflErr_nonneg heps
  have hu0 := R.u_nonneg
  have ht0 : 0 ≤ triErr R n := by
    unfold triErr
    have := gam_nonneg R.u_nonneg hu
    positivity
  have hre : 0 ≤ reflErrs R n (n - 1) := by
    have h1 : (1 : ℝ) ≤ 1 + reflErr R n := by linarith [reflErr_nonneg hu5]
    unfold reflErrs
    linarith [one_le_pow₀ (n := n - 1) h1]
  obtain ⟨B, hm0, hAB, s1, s2, s3, s4⟩ := scaleDown_rnd a ha hn
  have hsq : a.nr = a.nc := by rw [ha.1, ha.2]
  obtain ⟨t, ht, hsh, q, hqs, hev, hgen, h1, h2'⟩ := symmetricEig_cases fuel a ev eps hsq (by rw [ha.1]; exact hn)
  rw [ha.1] at hsh hqs h1 h2'
  obtain ⟨t', Q, ht', hQ, -, sQ, P, Δ, hP, hPT, hΔ, hQP⟩ := symTridiagonal_rnd (a.scaleDown a.amax) s1 hn (s3 hs) hu
    hc
  rw [ht, Except.ok.injEq] at ht'
  subst ht'
  have hT : t.tMatV n = tridiag n (dv t.intoDiagonals.1) (effV t.intoDiagonals.2 (n - 1)) := by
    ext i j
    simp only [TridiagonalDecomp.tMatV, tridiag, Matrix.of_apply, effV, dv]
    have := i.2
    have := j.2
    split_ifs <;> first | omega | rfl
  have hq0 : ∀ x, q = some x → frob (toMat n n (Rnd.vals x) - P) ≤ (1 + reflErrs R n (n - 1) - 1) * Real.sqrt n := by
    intro x hx
    have := hgen x hx
    rw [hQ, Except.ok.injEq] at this
    subst this
    rw [add_sub_cancel_left, mul_comm]
    refine frob_le_of_sq (mul_nonneg (Real.sqrt_nonneg _) hre) ?_
    rw [Finset.sum_comm, mul_pow, Real.sq_sqrt (Nat.cast_nonneg n)]
    calc _ = ∑ j, colNorm (toMat n n (Rnd.vals Q) - P) j ^ 2 := Finset.sum_congr rfl fun j _ => (colNorm_sq _ j).symm
      _ ≤ ∑ _j : Fin n, reflErrs R n (n - 1) ^ 2 :=
          Finset.sum_le_sum fun j _ => pow_le_pow_left₀ (Real.sqrt_nonneg _) (hQP j) 2
      _ = n * reflErrs R n (n - 1) ^ 2 := by simp
  have hsim0 : SimQ n B (tridiag n (dv t.intoDiagonals.1) (effV t.intoDiagonals.2 (n - 1))) 1 q
      ((1 + triErr R n) * (1 + R.u)) (1 + reflErrs R n (n - 1)) := by
    have hPP := mul_eq_one_comm.1 hP
    have g1 : frob (B - 1 * toMat n n (Rnd.vals (a.scaleDown a.amax)) * (1 : Matrix (Fin n) (Fin n) ℝ)ᵀ) ≤
        (1 + R.u - 1) * frob B := by
      rw [Matrix.one_mul, Matrix.transpose_one, Matrix.mul_one, ← frob_neg, neg_sub, add_sub_cancel_left]
      exact s2
    have g2 := simil_step (W := Pᵀ) (X' := tridiag n (dv t.intoDiagonals.1) (effV t.intoDiagonals.2 (n - 1)))
      (by simp) g1 (by rw [Matrix.transpose_transpose]; exact hPP) ht0 ?_
    · rw [Matrix.one_mul, Matrix.transpose_transpose] at g2
      exact ⟨P, hP, g2.2, fun x hx => by rw [Matrix.one_mul]; exact hq0 x hx⟩
    have e1 : t.tMatV n - Pᵀ * toMat n n (Rnd.vals (a.scaleDown a.amax)) * Pᵀᵀ = Pᵀ * Δ * Pᵀᵀ := by
      have e2 : Pᵀ * (toMat n n (Rnd.vals (a.scaleDown a.amax)) + Δ) * P = t.tMatV n := by
        rw [hPT]
        calc Pᵀ * (P * t.tMatV n * Pᵀ) * P = (Pᵀ * P) * t.tMatV n * (Pᵀ * P) := by simp only [Matrix.mul_assoc]
          _ = _ := by rw [hP, Matrix.one_mul, Matrix.mul_one]
      rw [← e2, Matrix.transpose_transpose, Matrix.mul_add, Matrix.add_mul]
      abel
    rw [← hT, e1, Matrix.transpose_transpose, frob_mul_orth hPP,
      frob_orth_mul (by rw [Matrix.transpose_transpose]; exact hPP)]
    refine hΔ.trans (mul_le_mul_of_nonneg_right (mul_le_mul_of_nonneg_left ?_ ?_) (frob_nonneg _))
    · have : ((n - 1 : Nat) : ℝ) ≤ n := by exact_mod_cast Nat.sub_le n 1
      have h0 : (0 : ℝ) ≤ (n - 1 : Nat) := Nat.cast_nonneg _
      nlinarith
    · exact mul_nonneg (by norm_num) (gam_nonneg R.u_nonneg hu)
  have hfin : ∀ (d : Arr1 (Rnd R)) (e : Nat → ℝ) (O : Matrix (Fin n) (Fin n) ℝ) (q' : Option (Arr2 (Rnd R))) (G H : ℝ),
      (∀ k, e k = 0) → SimQ n B (tridiag n (dv d) e) O q' G H →
      SimQ n (toMat n n (Rnd.vals a)) (diagonal fun i : Fin n => ((d.map fun x => x * a.amax).get i).v) O q'
        ((1 + R.u) * G) H := by
    intro d e O q' G H hz hsim
    have hX : tridiag n (dv d) e = diagonal fun i : Fin n => (d.get i).v := by
      ext i j
      simp only [tridiag, Matrix.of_apply, hz, ite_self, Matrix.diagonal_apply, dv, Fin.ext_iff]
    rw [hX] at hsim
    have hA : SimQ n (toMat n n (Rnd.vals a)) (a.amax.v • diagonal fun i : Fin n => (d.get i).v) O q' G H := by
      obtain ⟨P, p1, p2, p3⟩ := hsim
      refine ⟨P, p1, ?_, p3⟩
      rw [hAB, Matrix.mul_smul, Matrix.smul_mul, ← smul_sub, frob_smul, frob_smul, abs_of_nonneg hm0]
      calc a.amax.v * _ ≤ a.amax.v * ((G - 1) * frob B) := mul_le_mul_of_nonneg_left p2 hm0
        _ = _ := by ring
    refine hA.perturb hu0 ?_
    rw [show R.u * frob (a.amax.v • diagonal fun i : Fin n => (d.get i).v) =
        frob (R.u • a.amax.v • diagonal fun i : Fin n => (d.get i).v) by
          rw [frob_smul R.u, abs_of_nonneg R.u_nonneg]]
    refine frob_mono fun i j => ?_
    by_cases hij : i = j
    · subst hij
      simp only [Matrix.sub_apply, Matrix.diagonal_apply_eq, Matrix.smul_apply, smul_eq_mul, Arr1.map, Rnd.mul_v]
      rw [abs_mul R.u, abs_of_nonneg R.u_nonneg, mul_comm a.amax.v]
      exact R.rnd_err _
    · simp only [Matrix.sub_apply, Matrix.diagonal_apply_ne _ hij, Matrix.smul_apply, smul_eq_mul, mul_zero, sub_zero,
        abs_zero, le_refl]
  have hρ0 : 0 ≤ ρ := hrt.trans hρ
  have hg1 : 1 ≤ (1 + ρ) * (1 + deflErr R) := one_le_mul_of_one_le_of_one_le (by linarith) (by linarith)
  have hG0 : 1 ≤ (1 + triErr R n) * (1 + R.u) := one_le_mul_of_one_le_of_one_le (by linarith) (by linarith)
  by_cases hn1 : n = 1
  · rw [h1 hn1]
    refine ⟨?_, hqs, hev, 1, hS1, (hfin t.intoDiagonals.1 _ _ _ _ _ ?_ hsim0).mono ?_ ?_⟩
    · simp [Arr1.map, TridiagonalDecomp.intoDiagonals, Arr2.diag, hsh.nr, hsh.nc]
    · intro k
      rw [effV, if_neg (by omega)]
    · rw [show (1 + R.u) * ((1 + triErr R n) * (1 + R.u)) = (1 + R.u) ^ 2 * (1 + triErr R n) by ring]
      exact le_mul_of_one_le_right (by positivity) (one_le_pow₀ hg1)
    · rw [eigOrthErr, add_sub_cancel]
      exact le_mul_of_one_le_right (by linarith) (one_le_pow₀ (by linarith))
  · obtain ⟨off, s, e, hdel, ds, hei, heq⟩ := h2' hn1
    rw [heq, wp_bind]
    have h0 := EigR.of_delim (mid := ⟨t.intoDiagonals.1, t.intoDiagonals.2, q, s, n - 1⟩)
      (st := ⟨t.intoDiagonals.1, off, q, s, e⟩) heps he (by linarith) (by simp only; omega) hsim0 rfl rfl ds
    have hloop := EigR.loop heps he hu10 hρ hS hV (h2 B s4) fuel hS1
      (one_le_mul_of_one_le_of_one_le hG0 (one_le_pow₀ (by linarith))) (by linarith) h0 hei
      (hV0 _ ⟨t, ht, hev, hgen, rfl, by rw [ha.1]; exact hdel⟩)
    have hsome : wp (eigLoop eps fuel ⟨t.intoDiagonals.1, off, q, s, e⟩)
        (fun st => EigShape n eps st ∧ st.q.isSome = ev ∧ st.end = st.start) (fun _ => True) :=
      wp_eigLoop fuel hei trivial (fun st => st.q.isSome = ev) hev (fun st h1 h2 h3 => by
        have g1 := h1.isSome_step h2
        have g2 := eigStep_shape h1 h2
        cases hx : eigStep eps st with
        | error e => trivial
        | ok v =>
          rw [hx] at g1 g2
          exact ⟨g2, Eq.trans g1 h3⟩)
    cases hx : eigLoop eps fuel ⟨t.intoDiagonals.1, off, q, s, e⟩ with
    | error e => rw [hx] at hloop; exact hloop
    | ok st =>
      rw [hx] at hloop hsome
      obtain ⟨hst, hend, O, hO, hR⟩ := hloop
      obtain ⟨-, hev', -⟩ := hsome
      refine ⟨hst.diag, hst.q, hev', O, hO, (hfin st.diag _ _ _ _ _ ?_ hR.sim).mono ?_ ?_⟩
      · intro k
        rw [effV, if_neg (by rw [hR.end0 hend]; omega)]
      · simp only
        have h3 : (1 + deflErr R) ^ (n - 1) ≤ ((1 + ρ) * (1 + deflErr R)) ^ n := by
          rw [mul_pow]
          calc (1 + deflErr R) ^ (n - 1) ≤ (1 + deflErr R) ^ n := pow_le_pow_right₀ (by linarith) (by omega)
            _ ≤ _ := le_mul_of_one_le_left (by positivity) (one_le_pow₀ (by linarith))
        calc (1 + R.u) * ((1 + triErr R n) * (1 + R.u) * (1 + deflErr R) ^ (n - 1) *
              ((1 + ρ) * (1 + deflErr R)) ^ (n * fuel))
            = (1 + R.u) ^ 2 * (1 + triErr R n) * ((1 + deflErr R) ^ (n - 1) *
              ((1 + ρ) * (1 + deflErr R)) ^ (n * fuel)) := by ring
          _ ≤ (1 + R.u) ^ 2 * (1 + triErr R n) * (((1 + ρ) * (1 + deflErr R)) ^ n *
              ((1 + ρ) * (1 + deflErr R)) ^ (n * fuel)) := by gcongr
          _ = _ := by rw [← pow_add, show n + n * fuel = n * (fuel + 1) by ring]
      · rw [eigOrthErr, add_sub_cancel]

/-- What `symmetric_eig` returns on a symmetric matrix. -/
theorem symmetricEig_rnd {n : Nat} (fuel : Nat) (a : Arr2 (Rnd R)) (ev : Bool) {eps : Rnd R} (he : eps.v = R.eps)
    (heps : 0 ≤ R.eps) (ha : HasShape a n n) (hn : 1 ≤ n) (hs : (toMat n n (Rnd.vals a)).IsSymm)
    (hu : ((10 * n + 56 : Nat) : ℝ) * R.u < 1) (hw : 10 * R.w < 1) (hc : triErr R n ≤ 1) :
    wp (symmetricEig fuel a ev eps) (fun r => r.1.len = n ∧ OptShape r.2 n n ∧ r.2.isSome = ev ∧
      ∃ O, Oᵀ * O = 1 ∧ SimQ n (toMat n n (Rnd.vals a)) (diagonal fun i : Fin n => (r.1.get i).v) O r.2
        (1 + eigErr R n fuel) (1 + eigOrthErr R n fuel))
      (fun e => e = .fuel) := by
  have hu10 := uw_lt hu hw
  have := symmetricEig_simq fuel a ev he heps ha hn hs hu hw hc (ρ := rotErr R) le_rfl
    (S := {O : Matrix (Fin n) (Fin n) ℝ | Oᵀ * O = 1}) (fun O hO => hO) (by simp) (V := fun _ => True)
    (fun _ _ => trivial) (fun _ _ _ _ _ => trivial)
    (fun B _ O hO G H st hG hH h hsh _ hst => h.two heps he hu10 hO (by linarith) hH hsh hst)
  refine wp_conseq this ?_
  rintro r ⟨g1, g2, g3, O, hO, g4⟩
  refine ⟨g1, g2, g3, O, hO, ?_⟩
  rw [eigErr, add_sub_cancel]
  exact g4

/-- What `symmetric_eig` returns on a symmetric matrix, on runs without a `2 × 2` block that loses the eigenvector. -/
theorem symmetricEig_good {n : Nat} (fuel : Nat) (a : Arr2 (Rnd R)) (ev : Bool) {eps : Rnd R} (he : eps.v = R.eps)
    (heps : 0 ≤ R.eps) (ha : HasShape a n n) (hn : 1 ≤ n) (hs : (toMat n n (Rnd.vals a)).IsSymm)
    (hu : ((10 * n + 56 : Nat) : ℝ) * R.u < 1) (hw : 10 * R.w < 1) (hc : triErr R n ≤ 1) {K : ℝ} (hK : 0 ≤ K)
    (hgood : ∀ st, EigVisits a ev eps st → BlockGood K st) :
    wp (symmetricEig fuel a ev eps) (fun r => r.1.len = n ∧ OptShape r.2 n n ∧ r.2.isSome = ev ∧
      SimQ n (toMat n n (Rnd.vals a)) (diagonal fun i : Fin n => (r.1.get i).v) 1 r.2
        (1 + eigVecErr R K n fuel) (1 + eigOrthErr R n fuel))
      (fun e => e = .fuel) := by
  have hu10 := uw_lt hu hw
  have hr := rotErr_nonneg hu10
  have hρ : rotErr R ≤ blockErr R K := by
    have h1 := mul_nonneg hK hr
    have h2 : 0 ≤ 3 * (K + 1) * R.eps := by positivity
    unfold blockErr
    linarith
  have := symmetricEig_simq fuel a ev he heps ha hn hs hu hw hc hρ
    (S := {(1 : Matrix (Fin n) (Fin n) ℝ)}) (fun O hO => by rw [Set.mem_singleton_iff.1 hO]; simp) (by simp)
    (V := EigVisits a ev eps) (fun st h => .start h) (fun _ _ h h1 h2 => .step h h1 h2)
    (fun B hB O hO G H st hG hH h hsh hv hst => wp_conseq (h.two_good heps he hu10 hB
      (by rw [Set.mem_singleton_iff.1 hO]; simp) hG hH hK hsh hst (hgood st hv hst)) fun mid hm => ⟨O, hO, hm⟩)
  refine wp_conseq this ?_
  rintro r ⟨g1, g2, g3, O, hO, g4⟩
  rw [Set.mem_singleton_iff.1 hO] at g4
  refine ⟨g1, g2, g3, ?_⟩
  rw [eigVecErr, add_sub_cancel]
  exact g4

end LinfaLinalg
