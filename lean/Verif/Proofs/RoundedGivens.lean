import Verif.Proofs.Rounded
import Verif.Proofs.EighReal
import Verif.Proofs.Ritz

/-! # Rounding errors of Givens rotations -/

set_option linter.unusedSimpArgs false
set_option linter.unusedSectionVars false

namespace LinfaLinalg

open Matrix

variable {R : StdModel}

theorem StdModel.uw_nonneg (R : StdModel) : 0 ≤ R.uw := R.u_nonneg.trans (le_max_left _ _)

theorem StdModel.uw_lt_one (R : StdModel) : R.uw < 1 := max_lt R.u_lt_one R.w_lt_one

theorem rotErr_nonneg (hu : 10 * R.uw < 1) : 0 ≤ rotErr R :=
  mul_nonneg (by norm_num) (gam_nonneg R.uw_nonneg (by exact_mod_cast hu))

theorem deflErr_nonneg (he : 0 ≤ R.eps) : 0 ≤ deflErr R := by
  unfold deflErr
  have := R.u_nonneg
  positivity

/-- `y` is `x` up to `k` rounding errors. -/
def Rel (R : StdModel) (k : Nat) (y x : ℝ) : Prop := ∃ t, Near R.uw k t ∧ y = x * t

theorem Rel.rnd (x : ℝ) : Rel R 1 (R.rnd x) x :=
  near_of_err R.uw_nonneg R.uw_lt_one ((R.rnd_err x).trans
    (mul_le_mul_of_nonneg_right (le_max_left _ _) (abs_nonneg x)))

theorem Rel.hyp (x y : ℝ) : Rel R 1 (R.hyp x y) (Real.sqrt (x * x + y * y)) := by
  refine near_of_err R.uw_nonneg R.uw_lt_one ((R.hyp_err x y).trans ?_)
  rw [abs_of_nonneg (Real.sqrt_nonneg (x * x + y * y))]
  exact mul_le_mul_of_nonneg_right (le_max_right _ _) (Real.sqrt_nonneg _)

theorem Rel.refl (k : Nat) (x : ℝ) : Rel R k x x := ⟨1, near_one R.uw_nonneg R.uw_lt_one k, by ring⟩

theorem Rel.mul {j k : Nat} {a b x y : ℝ} (h1 : Rel R j a x) (h2 : Rel R k b y) : Rel R (j + k) (a * b) (x * y) := by
  obtain ⟨s, hs, rfl⟩ := h1
  obtain ⟨t, ht, rfl⟩ := h2
  exact ⟨s * t, hs.mul R.uw_nonneg R.uw_lt_one ht, by ring⟩

theorem Rel.div {j k : Nat} {a b x y : ℝ} (h1 : Rel R j a x) (h2 : Rel R k b y) : Rel R (j + k) (a / b) (x / y) := by
  obtain ⟨s, hs, rfl⟩ := h1
  obtain ⟨t, ht, rfl⟩ := h2
  refine ⟨s * t⁻¹, hs.mul R.uw_nonneg R.uw_lt_one (ht.inv R.uw_nonneg R.uw_lt_one), ?_⟩
  rw [div_eq_mul_inv, mul_inv, div_eq_mul_inv]
  ring

theorem Rel.neg {k : Nat} {a x : ℝ} (h : Rel R k a x) : Rel R k (-a) (-x) := by
  obtain ⟨s, hs, rfl⟩ := h
  exact ⟨s, hs, by ring⟩

theorem Rel.trans {j k : Nat} {a b c : ℝ} (h1 : Rel R j b a) (h2 : Rel R k c b) : Rel R (j + k) c a := by
  obtain ⟨s, hs, rfl⟩ := h1
  obtain ⟨t, ht, rfl⟩ := h2
  exact ⟨s * t, hs.mul R.uw_nonneg R.uw_lt_one ht, by ring⟩

theorem Rel.mono {j k : Nat} {a b : ℝ} (h : Rel R j b a) (hjk : j ≤ k) : Rel R k b a := by
  obtain ⟨s, hs, rfl⟩ := h
  exact ⟨s, hs.mono R.uw_nonneg R.uw_lt_one hjk, rfl⟩

theorem Rel.sqrt {k : Nat} {a b : ℝ} (h : Rel R k b a) (ha : 0 ≤ a) : Rel R k (Real.sqrt b) (Real.sqrt a) := by
  obtain ⟨s, hs, rfl⟩ := h
  exact ⟨Real.sqrt s, hs.sqrt R.uw_nonneg R.uw_lt_one, Real.sqrt_mul ha s⟩

theorem Rel.pos {k : Nat} {a b : ℝ} (h : Rel R k b a) (ha : 0 < a) : 0 < b := by
  obtain ⟨s, hs, rfl⟩ := h
  exact mul_pos ha (hs.pos R.uw_nonneg R.uw_lt_one)

theorem Rel.nonneg {k : Nat} {a b : ℝ} (h : Rel R k b a) (ha : 0 ≤ a) : 0 ≤ b := by
  obtain ⟨s, hs, rfl⟩ := h
  exact mul_nonneg ha (hs.pos R.uw_nonneg R.uw_lt_one).le

/-- Nonnegative terms can be added. -/
theorem Rel.add_nonneg {k : Nat} {a b x y : ℝ} (h1 : Rel R k a x) (h2 : Rel R k b y) (hx : 0 ≤ x) (hy : 0 ≤ y) :
    Rel R k (a + b) (x + y) := by
  have p : 0 < (1 - R.uw) ^ k := pow_pos (by linarith [R.uw_lt_one]) k
  by_cases h0 : x + y = 0
  · have hx0 : x = 0 := by linarith
    have hy0 : y = 0 := by linarith
    subst hx0 hy0
    obtain ⟨s, hs, rfl⟩ := h1
    obtain ⟨t, ht, rfl⟩ := h2
    exact ⟨s, hs, by ring⟩
  · have hp : 0 < x + y := lt_of_le_of_ne (by linarith) (Ne.symm h0)
    obtain ⟨s, hs, rfl⟩ := h1
    obtain ⟨t, ht, rfl⟩ := h2
    refine ⟨(x * s + y * t) / (x + y), ⟨?_, ?_⟩, by field_simp⟩
    · rw [le_div_iff₀ hp]
      nlinarith [mul_le_mul_of_nonneg_left hs.1 hx, mul_le_mul_of_nonneg_left ht.1 hy]
    · rw [div_mul_eq_mul_div, div_le_one hp]
      nlinarith [mul_le_mul_of_nonneg_left hs.2 hx, mul_le_mul_of_nonneg_left ht.2 hy]

theorem Rel.err {k : Nat} {a b : ℝ} (h : Rel R k b a) (hk : k ≤ 10) (hu : 10 * R.uw < 1) :
    |b - a| ≤ gam R.uw 10 * |a| := by
  obtain ⟨s, hs, rfl⟩ := h
  have := (hs.mono R.uw_nonneg R.uw_lt_one hk).abs_sub_one R.uw_nonneg R.uw_lt_one (by exact_mod_cast hu)
  rw [show a * s - a = (s - 1) * a by ring, abs_mul]
  exact mul_le_mul_of_nonneg_right this (abs_nonneg a)

/-- The rotation that `cancel_y` should have returned. -/
structure RotNear (R : StdModel) (x y : ℝ) (g : GivensRotation (Rnd R)) (r : Rnd R) (c s ρ : ℝ) : Prop where
  one : c * c + s * s = 1
  rx : c * x - s * y = ρ
  ry : s * x + c * y = 0
  pos : 0 < ρ
  sq : ρ * ρ = x * x + y * y
  hc : Rel R 2 g.c.v c
  hs : Rel R 2 g.s.v s
  hr : Rel R 1 r.v ρ

theorem cancelY_rnd {x y : Rnd R} {g : GivensRotation (Rnd R)} {r : Rnd R}
    (h : GivensRotation.cancelY x y = some (g, r)) : ∃ c s ρ, RotNear R x.v y.v g r c s ρ := by
  unfold GivensRotation.cancelY at h
  simp only [Rnd.isZero_v, Bool.not_eq_true', decide_eq_false_iff_not] at h
  split at h
  · rename_i hy
    simp only [Option.some.injEq, Prod.mk.injEq] at h
    obtain ⟨rfl, hr⟩ := h
    have hpos : 0 < x.v * x.v + y.v * y.v := by
      have := mul_self_pos.2 hy
      have := mul_self_nonneg x.v
      linarith
    obtain ⟨ρ, hρ⟩ : ∃ ρ, ρ = Real.sqrt (x.v * x.v + y.v * y.v) := ⟨_, rfl⟩
    have hr0 : 0 < ρ := by rw [hρ]; exact Real.sqrt_pos.2 hpos
    have hsq : ρ * ρ = x.v * x.v + y.v * y.v := by rw [hρ]; exact Real.mul_self_sqrt hpos.le
    have hrel : Rel R 1 r.v ρ := by rw [← hr, hρ]; exact Rel.hyp _ _
    rw [hr]
    have hne := hr0.ne'
    refine ⟨x.v / ρ, -y.v / ρ, ρ, ?_, ?_, ?_, hr0, hsq, ?_, ?_, hrel⟩
    · field_simp
      linear_combination -hsq
    · field_simp
      linear_combination -hsq
    · field_simp
      ring
    · exact ((Rel.refl 0 _).div hrel).trans (Rel.rnd _)
    · exact ((Rel.refl 0 _).div hrel).trans (Rel.rnd _)
  · exact absurd h (by simp)

theorem cancelY_rnd_none {x y : Rnd R} (h : GivensRotation.cancelY x y = none) : y.v = 0 := by
  unfold GivensRotation.cancelY at h
  simp only [Rnd.isZero_v, Bool.not_eq_true', decide_eq_false_iff_not] at h
  split at h
  · exact absurd h (by simp)
  · rename_i hy; exact not_not.1 hy

theorem tryNew_rnd {c s eps : Rnd R} {g : GivensRotation (Rnd R)} {r : Rnd R} (heps : 0 ≤ eps.v)
    (h : GivensRotation.tryNew c s eps = some (g, r)) : ∃ ρ : ℝ, 0 < ρ ∧ ρ * ρ = c.v * c.v + s.v * s.v ∧
      c.v / ρ * (c.v / ρ) + s.v / ρ * (s.v / ρ) = 1 ∧ Rel R 2 g.c.v (c.v / ρ) ∧ Rel R 2 g.s.v (s.v / ρ) := by
  unfold GivensRotation.tryNew at h
  simp only [Rnd.lt_v, decide_eq_true_eq] at h
  split at h
  · rename_i hlt
    simp only [Option.some.injEq, Prod.mk.injEq] at h
    obtain ⟨rfl, hr⟩ := h
    rw [hr] at hlt ⊢
    obtain ⟨ρ, hρ⟩ : ∃ ρ, ρ = Real.sqrt (c.v * c.v + s.v * s.v) := ⟨_, rfl⟩
    have hrel : Rel R 1 r.v ρ := by rw [← hr, hρ]; exact Rel.hyp _ _
    have hne : ρ ≠ 0 := by
      intro h0
      obtain ⟨t, -, ht⟩ := hrel
      rw [h0, zero_mul] at ht
      linarith
    have hsq : ρ * ρ = c.v * c.v + s.v * s.v := by
      rw [hρ]; exact Real.mul_self_sqrt (by nlinarith [mul_self_nonneg c.v, mul_self_nonneg s.v])
    have hpos : 0 < ρ := lt_of_le_of_ne (by rw [hρ]; exact Real.sqrt_nonneg _) (Ne.symm hne)
    refine ⟨ρ, hpos, hsq, ?_, ((Rel.refl 0 _).div hrel).trans (Rel.rnd _),
      ((Rel.refl 0 _).div hrel).trans (Rel.rnd _)⟩
    field_simp
    linear_combination -hsq
  · exact absurd h (by simp)

theorem tryNew_rnd_none {c s eps : Rnd R} (h : GivensRotation.tryNew c s eps = none) :
    (1 - R.w) * Real.sqrt (c.v * c.v + s.v * s.v) ≤ eps.v := by
  unfold GivensRotation.tryNew at h
  simp only [Rnd.lt_v, decide_eq_true_eq] at h
  split at h
  · exact absurd h (by simp)
  · rename_i hlt
    have h1 := R.hyp_err c.v s.v
    have h2 := (abs_le.1 h1).1
    simp only [Rnd.hypot_v] at hlt
    push Not at hlt
    linarith

/-! ## Rotating two columns -/

/-- `Q` is orthogonal up to `H - 1` in quadratic mean. -/
def NearOrth (n : Nat) (Q : Matrix (Fin n) (Fin n) ℝ) (H : ℝ) : Prop :=
  ∃ P : Matrix (Fin n) (Fin n) ℝ, Pᵀ * P = 1 ∧ frob (Q - P) ≤ (H - 1) * Real.sqrt n

theorem frob_orth {n : Nat} {P : Matrix (Fin n) (Fin n) ℝ} (hP : Pᵀ * P = 1) : frob P = Real.sqrt n := by
  have h := frob_sq_trace P
  rw [hP, Matrix.trace_one, Fintype.card_fin] at h
  rw [← h, Real.sqrt_sq (frob_nonneg P)]

theorem NearOrth.mono {n : Nat} {Q : Matrix (Fin n) (Fin n) ℝ} {H H' : ℝ} (h : NearOrth n Q H) (hH : H ≤ H') :
    NearOrth n Q H' := by
  obtain ⟨P, h1, h2⟩ := h
  exact ⟨P, h1, h2.trans (mul_le_mul_of_nonneg_right (by linarith) (Real.sqrt_nonneg _))⟩

theorem NearOrth.step {n : Nat} {Q Q' W : Matrix (Fin n) (Fin n) ℝ} {H ε : ℝ} (h : NearOrth n Q H)
    (hW : Wᵀ * W = 1) (hε : 0 ≤ ε) (hQ : frob (Q' - Q * W) ≤ ε * frob Q) : NearOrth n Q' ((1 + ε) * H) := by
  obtain ⟨P, h1, h2⟩ := h
  have hW' : W * Wᵀ = 1 := mul_eq_one_comm.1 hW
  refine ⟨P * W, ?_, ?_⟩
  · rw [Matrix.transpose_mul, Matrix.mul_assoc, ← Matrix.mul_assoc Pᵀ, h1, Matrix.one_mul, hW]
  · have e1 := frob_sub_le Q' (Q * W) (P * W)
    rw [← Matrix.sub_mul, frob_mul_orth hW'] at e1
    have e2 := frob_sub_le Q P 0
    rw [sub_zero, sub_zero, frob_orth h1] at e2
    have e3 : ε * frob Q ≤ ε * (H * Real.sqrt n) := mul_le_mul_of_nonneg_left (by linarith) hε
    nlinarith

/-- The rounded rotation of two columns. -/
theorem rotCols_rnd {n i : Nat} (hi : i + 1 < n) (hu : 10 * R.uw < 1) {g : GivensRotation (Rnd R)} {c s : ℝ}
    (h1 : c * c + s * s = 1) (hc : Rel R 2 g.c.v c) (hs : Rel R 2 g.s.v s) {q : Arr2 (Rnd R)} (hq : HasShape q n n) :
    frob (toMat n n (Rnd.vals (rotCols g i (i + 1) q)) - toMat n n (Rnd.vals q) * rotM n i (i + 1) c s) ≤
      rotErr R * frob (toMat n n (Rnd.vals q)) := by
  have hg := gam_nonneg (n := 10) R.uw_nonneg (by exact_mod_cast hu)
  obtain ⟨G, hG⟩ : ∃ G, G = gam R.uw 10 := ⟨_, rfl⟩
  rw [← hG] at hg
  unfold rotErr
  rw [← hG]
  let a : Fin n := ⟨i, by omega⟩
  let b : Fin n := ⟨i + 1, hi⟩
  have hab : a ≠ b := fun h => by have := Fin.mk.inj_iff.1 h; omega
  obtain ⟨Q, hQ⟩ : ∃ Q, Q = toMat n n (Rnd.vals q) := ⟨_, rfl⟩
  have hqv : ∀ (r : Fin n) (k : Nat) (hk : k < n), (q.get r k).v = Q r ⟨k, hk⟩ := fun r k hk => by rw [hQ]; rfl
  rw [← hQ]
  have lin : ∀ (P X P' X' A B : ℝ), Rel R 2 P' P → Rel R 2 X' X → P * P + X * X = 1 →
      (R.rnd (R.rnd (A * P') + R.rnd (X' * B)) - (A * P + B * X)) ^ 2 ≤ G ^ 2 * (A ^ 2 + B ^ 2) * 2 := by
    intro P X P' X' A B hP hX hPX
    obtain ⟨t, ht, et⟩ := Rel.rnd (R := R) (R.rnd (A * P') + R.rnd (X' * B))
    have r1 : Rel R 10 (R.rnd (A * P') * t) (A * P) :=
      (((Rel.refl 0 A).mul hP).trans (Rel.rnd _) |>.trans ⟨t, ht, rfl⟩).mono (by norm_num)
    have r2 : Rel R 10 (R.rnd (X' * B) * t) (X * B) :=
      ((hX.mul (Rel.refl 0 B)).trans (Rel.rnd _) |>.trans ⟨t, ht, rfl⟩).mono (by norm_num)
    have e1 := r1.err le_rfl hu
    have e2 := r2.err le_rfl hu
    rw [← hG] at e1 e2
    rw [et, add_mul]
    have e3 : |R.rnd (A * P') * t + R.rnd (X' * B) * t - (A * P + B * X)| ≤ G * (|A * P| + |X * B|) := by
      calc _ = |(R.rnd (A * P') * t - A * P) + (R.rnd (X' * B) * t - X * B)| := by congr 1; ring
        _ ≤ _ := (abs_add_le _ _).trans (by linarith)
    rw [← sq_abs]
    refine (pow_le_pow_left₀ (abs_nonneg _) e3 2).trans ?_
    have e4 : (|A * P| + |X * B|) ^ 2 ≤ (A ^ 2 + B ^ 2) * 2 := by
      have p1 : P ^ 2 ≤ 1 := by nlinarith
      have p2 : X ^ 2 ≤ 1 := by nlinarith
      have p3 : (A * P) ^ 2 ≤ A ^ 2 := by rw [mul_pow]; nlinarith [sq_nonneg A]
      have p4 : (X * B) ^ 2 ≤ B ^ 2 := by rw [mul_pow]; nlinarith [sq_nonneg B]
      nlinarith [sq_abs (A * P), sq_abs (X * B), sq_nonneg (|A * P| - |X * B|)]
    rw [mul_pow, mul_assoc]
    exact mul_le_mul_of_nonneg_left e4 (sq_nonneg G)
  apply frob_le_of_sq (mul_nonneg (mul_nonneg (by norm_num) hg) (frob_nonneg _))
  have hrow : ∀ r : Fin n, ∑ k, (toMat n n (Rnd.vals (rotCols g i (i + 1) q)) - Q * rotM n i (i + 1) c s) r k ^ 2 ≤
      4 * G ^ 2 * ∑ k, Q r k ^ 2 := by
    intro r
    have hval : ∀ k : Fin n, (toMat n n (Rnd.vals (rotCols g i (i + 1) q)) - Q * rotM n i (i + 1) c s) r k =
        if (k : Nat) = i then R.rnd (R.rnd (Q r a * g.c.v) + R.rnd (g.s.v * Q r b)) - (Q r a * c + Q r b * s)
        else if (k : Nat) = i + 1 then R.rnd (R.rnd (-g.s.v * Q r a) + R.rnd (Q r b * g.c.v)) - (Q r a * -s + Q r b * c)
        else 0 := by
      intro k
      rw [Matrix.sub_apply, mul_rotM_apply (by omega) hi (by omega)]
      simp only [toMat_apply, Rnd.vals, rotCols]
      rw [if_pos (by rw [hq.1]; exact r.2)]
      split_ifs
      · simp only [Rnd.add_v, Rnd.mul_v, hqv r i (by omega), hqv r (i + 1) hi, a, b]
      · simp only [Rnd.add_v, Rnd.mul_v, Rnd.neg_v, hqv r i (by omega), hqv r (i + 1) hi, a, b]
      · rw [hqv r k k.2, sub_self]
    rw [Fintype.sum_eq_add a b hab]
    · rw [hval a, hval b, if_pos rfl, if_neg (show ¬ (b : Nat) = i by simp [b]), if_pos rfl]
      have l1 := lin c s g.c.v g.s.v (Q r a) (Q r b) hc hs h1
      have l2 := lin c (-s) g.c.v (-g.s.v) (Q r b) (Q r a) hc hs.neg (by linarith)
      rw [add_comm (R.rnd (-g.s.v * Q r a)), add_comm (Q r a * -s)]
      have hsub : Q r a ^ 2 + Q r b ^ 2 ≤ ∑ k, Q r k ^ 2 := by
        rw [← Finset.sum_pair hab (f := fun k => Q r k ^ 2)]
        exact Finset.sum_le_sum_of_subset_of_nonneg (Finset.subset_univ _) (fun _ _ _ => sq_nonneg _)
      have := mul_le_mul_of_nonneg_left hsub (by positivity : 0 ≤ 4 * G ^ 2)
      linarith
    · rintro k ⟨k1, k2⟩
      rw [hval k, if_neg (fun h => k1 (Fin.ext h)), if_neg (fun h => k2 (Fin.ext h))]
      ring
  calc _ ≤ ∑ r, 4 * G ^ 2 * ∑ k, Q r k ^ 2 := Finset.sum_le_sum fun r _ => hrow r
    _ = 4 * G ^ 2 * frob Q ^ 2 := by rw [frob_sq, Finset.mul_sum]
    _ ≤ (8 * G * frob Q) ^ 2 := by nlinarith [mul_nonneg (sq_nonneg G) (sq_nonneg (frob Q))]

end LinfaLinalg
