import Verif.Proofs.RoundedEighLoop
import Verif.Proofs.RoundedBidiag
import Verif.Proofs.SvdSweepReal

/-! # Rounding errors of `svd`: one operation on the bidiagonal matrix and the factors -/

set_option linter.unusedSimpArgs false
set_option linter.unusedSectionVars false

namespace LinfaLinalg

open Matrix

variable {R : StdModel}

theorem svdRotErr_nonneg (hu : 10 * R.uw < 1) : 0 ≤ svdRotErr R :=
  mul_nonneg (by norm_num) (gam_nonneg R.uw_nonneg (by exact_mod_cast hu))

theorem svdDeflErr_nonneg (he : 0 ≤ R.eps) : 0 ≤ svdDeflErr R := by
  unfold svdDeflErr
  have := R.u_nonneg
  positivity

/-! ## Backward error of a sequence of orthogonal equivalences -/

theorem frob_orth' {p d : Nat} {L : Matrix (Fin p) (Fin d) ℝ} (h : Lᵀ * L = 1) : frob L = Real.sqrt d := by
  have h1 := frob_sq_trace L
  rw [h, Matrix.trace_one, Fintype.card_fin] at h1
  rw [← h1, Real.sqrt_sq (frob_nonneg L)]

/-- If `val` holds, then `L X Wᵀ` is within `(G - 1) ‖A‖_F` of `A` for some `L`, `W` with orthonormal columns; the
factors `lc`, `rc`, if any, are within `(H - 1) √d` of `L` and `W`. -/
def BiQ (val : Prop) {p d : Nat} (A : Matrix (Fin p) (Fin d) ℝ) (X : Matrix (Fin d) (Fin d) ℝ)
    (lc : Option (Matrix (Fin p) (Fin d) ℝ)) (rc : Option (Matrix (Fin d) (Fin d) ℝ)) (G H : ℝ) : Prop :=
  ∃ (L : Matrix (Fin p) (Fin d) ℝ) (W : Matrix (Fin d) (Fin d) ℝ), Lᵀ * L = 1 ∧ Wᵀ * W = 1 ∧
    (val → frob (A - L * X * Wᵀ) ≤ (G - 1) * frob A) ∧ (∀ U, lc = some U → frob (U - L) ≤ (H - 1) * Real.sqrt d) ∧
    ∀ V, rc = some V → frob (V - W) ≤ (H - 1) * Real.sqrt d

section BiQ
variable {val : Prop} {p d : Nat} {A : Matrix (Fin p) (Fin d) ℝ} {X X' Z : Matrix (Fin d) (Fin d) ℝ}
  {lc lc' : Option (Matrix (Fin p) (Fin d) ℝ)} {rc rc' : Option (Matrix (Fin d) (Fin d) ℝ)} {G G' H H' ε : ℝ}

theorem BiQ.norm (h : BiQ val A X lc rc G H) (hv : val) : frob X ≤ G * frob A := by
  obtain ⟨L, W, h1, h2, h3, -⟩ := h
  have e1 : frob (L * X * Wᵀ) = frob X := by
    rw [frob_mul_orth (by rw [Matrix.transpose_transpose]; exact h2), frob_orth_mul h1]
  have e2 := frob_sub_le (L * X * Wᵀ) A 0
  rw [sub_zero, sub_zero, e1, ← frob_neg (L * X * Wᵀ - A), neg_sub] at e2
  linarith [h3 hv]

theorem BiQ.mono (h : BiQ val A X lc rc G H) (hG : G ≤ G') (hH : H ≤ H') : BiQ val A X lc rc G' H' := by
  obtain ⟨L, W, h1, h2, h3, h4, h5⟩ := h
  exact ⟨L, W, h1, h2, fun hv => (h3 hv).trans (mul_le_mul_of_nonneg_right (by linarith) (frob_nonneg _)),
    fun U hU => (h4 U hU).trans (mul_le_mul_of_nonneg_right (by linarith) (Real.sqrt_nonneg _)),
    fun V hV => (h5 V hV).trans (mul_le_mul_of_nonneg_right (by linarith) (Real.sqrt_nonneg _))⟩

/-- An absolute perturbation of `X`. -/
theorem BiQ.shift (h : BiQ val A X lc rc G H) (hX : val → frob (X' - X) ≤ ε * (G * frob A)) :
    BiQ val A X' lc rc ((1 + ε) * G) H := by
  obtain ⟨L, W, h1, h2, h3, h4, h5⟩ := h
  refine ⟨L, W, h1, h2, fun hv => ?_, h4, h5⟩
  have e2 := frob_sub_le A (L * X * Wᵀ) (L * X' * Wᵀ)
  rw [← Matrix.sub_mul, ← Matrix.mul_sub, frob_mul_orth (by rw [Matrix.transpose_transpose]; exact h2),
    frob_orth_mul h1, ← frob_neg (X - X'), neg_sub] at e2
  linarith [h3 hv, hX hv]

theorem near_step' {m n : Nat} {Q Q' Y : Matrix (Fin m) (Fin n) ℝ} {W : Matrix (Fin n) (Fin n) ℝ} {H η : ℝ}
    (hY : Yᵀ * Y = 1) (h : frob (Q - Y) ≤ (H - 1) * Real.sqrt n) (hW : Wᵀ * W = 1) (hη : 0 ≤ η)
    (hQ : frob (Q' - Q * W) ≤ η * frob Q) : frob (Q' - Y * W) ≤ ((1 + η) * H - 1) * Real.sqrt n := by
  have e1 := frob_sub_le Q' (Q * W) (Y * W)
  rw [← Matrix.sub_mul, frob_mul_orth (mul_eq_one_comm.1 hW)] at e1
  have e2 := frob_sub_le Q Y 0
  rw [sub_zero, sub_zero, frob_orth' hY] at e2
  have e3 : η * frob Q ≤ η * (H * Real.sqrt n) := mul_le_mul_of_nonneg_left (by linarith) hη
  nlinarith

theorem near_grow {m n : Nat} {Q Y : Matrix (Fin m) (Fin n) ℝ} {H η : ℝ} (hη : 0 ≤ η) (hH : 0 ≤ H)
    (h : frob (Q - Y) ≤ (H - 1) * Real.sqrt n) : frob (Q - Y) ≤ ((1 + η) * H - 1) * Real.sqrt n :=
  h.trans (mul_le_mul_of_nonneg_right (by nlinarith) (Real.sqrt_nonneg _))

/-- An orthogonal matrix applied on the left, up to rounding. -/
theorem BiQ.left (h : BiQ val A X lc rc G H) (hZ : Zᵀ * Z = 1) (hε : 0 ≤ ε) (hH : 0 ≤ H)
    (hX : val → frob (X' - Zᵀ * X) ≤ ε * frob X)
    (hl : ∀ U', lc' = some U' → ∃ U, lc = some U ∧ frob (U' - U * Z) ≤ ε * frob U) :
    BiQ val A X' lc' rc ((1 + ε) * G) ((1 + ε) * H) := by
  have hn := h.norm
  obtain ⟨L, W, h1, h2, h3, h4, h5⟩ := h
  have hZ' : Z * Zᵀ = 1 := mul_eq_one_comm.1 hZ
  refine ⟨L * Z, W, orth_mul h1 hZ, h2, fun hv => ?_, fun U' hU' => ?_, fun V hV => near_grow hε hH (h5 V hV)⟩
  · have e1 : L * Z * (Zᵀ * X) * Wᵀ = L * X * Wᵀ := by
      rw [Matrix.mul_assoc L, ← Matrix.mul_assoc Z, hZ', Matrix.one_mul]
    have e2 := frob_sub_le A (L * X * Wᵀ) (L * Z * X' * Wᵀ)
    rw [← e1, ← Matrix.sub_mul, ← Matrix.mul_sub, frob_mul_orth (by rw [Matrix.transpose_transpose]; exact h2),
      frob_orth_mul (orth_mul h1 hZ), e1, ← frob_neg (Zᵀ * X - X'), neg_sub] at e2
    have e3 : ε * frob X ≤ ε * (G * frob A) := mul_le_mul_of_nonneg_left (hn hv) hε
    have := h3 hv
    have := hX hv
    nlinarith
  · obtain ⟨U, hU, hd⟩ := hl U' hU'
    exact near_step' h1 (h4 U hU) hZ hε hd

/-- An orthogonal matrix applied on the right, up to rounding. -/
theorem BiQ.right (h : BiQ val A X lc rc G H) (hZ : Zᵀ * Z = 1) (hε : 0 ≤ ε) (hH : 0 ≤ H)
    (hX : val → frob (X' - X * Z) ≤ ε * frob X)
    (hr : ∀ V', rc' = some V' → ∃ V, rc = some V ∧ frob (V' - V * Z) ≤ ε * frob V) :
    BiQ val A X' lc rc' ((1 + ε) * G) ((1 + ε) * H) := by
  have hn := h.norm
  obtain ⟨L, W, h1, h2, h3, h4, h5⟩ := h
  have hZ' : Z * Zᵀ = 1 := mul_eq_one_comm.1 hZ
  refine ⟨L, W * Z, h1, orth_mul h2 hZ, fun hv => ?_, fun U hU => near_grow hε hH (h4 U hU), fun V' hV' => ?_⟩
  · have e1 : L * (X * Z) * (W * Z)ᵀ = L * X * Wᵀ := by
      rw [Matrix.transpose_mul]
      calc L * (X * Z) * (Zᵀ * Wᵀ) = L * X * (Z * Zᵀ) * Wᵀ := by simp only [Matrix.mul_assoc]
        _ = _ := by rw [hZ', Matrix.mul_one]
    have e2 := frob_sub_le A (L * X * Wᵀ) (L * X' * (W * Z)ᵀ)
    rw [← e1, ← Matrix.sub_mul, ← Matrix.mul_sub,
      frob_mul_orth (by rw [Matrix.transpose_transpose]; exact orth_mul h2 hZ),
      frob_orth_mul h1, e1, ← frob_neg (X * Z - X'), neg_sub] at e2
    have e3 : ε * frob X ≤ ε * (G * frob A) := mul_le_mul_of_nonneg_left (hn hv) hε
    have := h3 hv
    have := hX hv
    nlinarith
  · obtain ⟨V, hV, hd⟩ := hr V' hV'
    exact near_step' h2 (h5 V hV) hZ hε hd

end BiQ

/-! ## Differences of bidiagonal matrices -/

theorem sum_sq_le_sq_sum {ι : Type} (s : Finset ι) (f : ι → ℝ) (hf : ∀ i, 0 ≤ f i) :
    ∑ i ∈ s, f i ^ 2 ≤ (∑ i ∈ s, f i) ^ 2 := by
  have h : ∀ i ∈ s, f i ^ 2 ≤ f i * ∑ j ∈ s, f j := fun i hi => by
    rw [sq]; exact mul_le_mul_of_nonneg_left (Finset.single_le_sum (fun j _ => hf j) hi) (hf i)
  refine (Finset.sum_le_sum h).trans ?_
  rw [← Finset.sum_mul, sq]

theorem frob_le_sum {m n : Nat} (E : Matrix (Fin m) (Fin n) ℝ) : frob E ≤ ∑ i, ∑ j, |E i j| := by
  have h0 : 0 ≤ ∑ i, ∑ j, |E i j| := Finset.sum_nonneg fun _ _ => Finset.sum_nonneg fun _ _ => abs_nonneg _
  refine frob_le_of_sq h0 ?_
  have h1 : ∀ i, ∑ j, E i j ^ 2 ≤ (∑ j, |E i j|) ^ 2 := by
    intro i
    have := sum_sq_le_sq_sum Finset.univ (fun j => |E i j|) (fun _ => abs_nonneg _)
    simpa only [sq_abs] using this
  have h2 := sum_sq_le_sq_sum Finset.univ (fun i => ∑ j, |E i j|)
    (fun _ => Finset.sum_nonneg fun _ _ => abs_nonneg _)
  exact (Finset.sum_le_sum fun i _ => h1 i).trans h2

theorem sum_supp_le {n : Nat} (S : Finset Nat) {f : Nat → ℝ} {ε : ℝ} (hε : 0 ≤ ε) {k : Nat} (hS : S.card ≤ k)
    (h : ∀ j, j < n → f j ≤ if j ∈ S then ε else 0) : ∑ r : Fin n, f r ≤ k * ε := by
  calc ∑ r : Fin n, f r ≤ ∑ r : Fin n, (if (r : Nat) ∈ S then ε else 0) := Finset.sum_le_sum fun r _ => h r r.2
    _ = ∑ j ∈ Finset.range n, (if j ∈ S then ε else 0) := Fin.sum_univ_eq_sum_range (fun j => if j ∈ S then ε else 0) n
    _ = ((Finset.range n).filter (· ∈ S)).card * ε := by rw [← Finset.sum_filter, Finset.sum_const, nsmul_eq_mul]
    _ ≤ k * ε := by
      refine mul_le_mul_of_nonneg_right ?_ hε
      exact_mod_cast (Finset.card_le_card (fun x hx => (Finset.mem_filter.1 hx).2)).trans hS

/-- Two bidiagonal matrices with a bulge whose entries differ at few places. -/
theorem biM_near {n a b : Nat} {d d' e e' : Nat → ℝ} {y y' ε : ℝ} (hε : 0 ≤ ε) (S T : Finset Nat)
    (hS : S.card ≤ 2) (hT : T.card ≤ 2) (hd : ∀ j, j < n → |d' j - d j| ≤ if j ∈ S then ε else 0)
    (he : ∀ j, j + 1 < n → |e' j - e j| ≤ if j ∈ T then ε else 0) (hy : |y' - y| ≤ ε) :
    frob (biM n d' e' a b y' - biM n d e a b y) ≤ 5 * ε := by
  refine (frob_le_sum _).trans ?_
  have h1 : ∀ r k : Fin n, |(biM n d' e' a b y' - biM n d e a b y) r k| ≤
      (if (k : Nat) = r then |d' r - d r| else 0) + (if (k : Nat) = r + 1 then |e' r - e r| else 0) +
        (if (r : Nat) = a then (if (k : Nat) = b then |y' - y| else 0) else 0) := by
    intro r k
    simp only [biM, biF, Matrix.sub_apply, Matrix.of_apply]
    by_cases c1 : (r : Nat) = k
    · rw [if_pos c1, if_pos c1, if_pos c1.symm, if_neg (show ¬ (k : Nat) = r + 1 by omega)]
      by_cases c2 : (r : Nat) = a
      · by_cases c3 : (k : Nat) = b
        · rw [if_pos ⟨c2, c3⟩, if_pos ⟨c2, c3⟩, if_pos c2, if_pos c3]
          rw [show d' r + y' - (d r + y) = (d' r - d r) + (y' - y) by ring, add_zero]
          exact abs_add_le _ _
        · rw [if_neg (by tauto), if_neg (by tauto), if_pos c2, if_neg c3]; simp
      · rw [if_neg (by tauto), if_neg (by tauto), if_neg c2]; simp
    · rw [if_neg c1, if_neg c1, if_neg (Ne.symm c1)]
      by_cases c4 : (k : Nat) = r + 1
      · rw [if_pos c4, if_pos c4, if_pos c4]
        by_cases c2 : (r : Nat) = a
        · by_cases c3 : (k : Nat) = b
          · rw [if_pos ⟨c2, c3⟩, if_pos ⟨c2, c3⟩, if_pos c2, if_pos c3]
            rw [show e' r + y' - (e r + y) = (e' r - e r) + (y' - y) by ring, zero_add]
            exact abs_add_le _ _
          · rw [if_neg (by tauto), if_neg (by tauto), if_pos c2, if_neg c3]; simp
        · rw [if_neg (by tauto), if_neg (by tauto), if_neg c2]; simp
      · rw [if_neg c4, if_neg c4, if_neg c4]
        by_cases c2 : (r : Nat) = a
        · by_cases c3 : (k : Nat) = b
          · rw [if_pos ⟨c2, c3⟩, if_pos ⟨c2, c3⟩, if_pos c2, if_pos c3]; simp
          · rw [if_neg (by tauto), if_neg (by tauto), if_pos c2, if_neg c3]; simp
        · rw [if_neg (by tauto), if_neg (by tauto), if_neg c2]; simp
  have pick : ∀ (q : Nat) (x : ℝ), 0 ≤ x → ∑ k : Fin n, (if (k : Nat) = q then x else 0) ≤ if q < n then x else 0 := by
    intro q x hx
    by_cases hq : q < n
    · rw [if_pos hq, Fintype.sum_eq_single (⟨q, hq⟩ : Fin n)]
      · rw [if_pos rfl]
      · intro k hk; rw [if_neg fun h => hk (Fin.ext h)]
    · rw [if_neg hq, Finset.sum_eq_zero]
      intro k _; rw [if_neg (by have := k.2; omega)]
  calc ∑ r, ∑ k, |(biM n d' e' a b y' - biM n d e a b y) r k| ≤
      ∑ r : Fin n, (|d' r - d r| + (if (r : Nat) + 1 < n then |e' r - e r| else 0) +
        (if (r : Nat) = a then |y' - y| else 0)) := by
        refine Finset.sum_le_sum fun r _ => ?_
        refine (Finset.sum_le_sum fun k _ => h1 r k).trans ?_
        rw [Finset.sum_add_distrib, Finset.sum_add_distrib]
        have p1 := pick r _ (abs_nonneg (d' r - d r))
        rw [if_pos r.2] at p1
        have p2 := pick (r + 1) _ (abs_nonneg (e' r - e r))
        have p3 : ∑ k : Fin n, (if (r : Nat) = a then (if (k : Nat) = b then |y' - y| else 0) else 0) ≤
            if (r : Nat) = a then |y' - y| else 0 := by
          by_cases c : (r : Nat) = a
          · simp only [if_pos c]
            refine (pick b _ (abs_nonneg (y' - y))).trans ?_
            split_ifs <;> simp
          · simp [if_neg c]
        linarith
    _ ≤ (2 : Nat) * ε + (2 : Nat) * ε + ε := by
        rw [Finset.sum_add_distrib, Finset.sum_add_distrib]
        have q1 := sum_supp_le (n := n) S (f := fun r => |d' r - d r|) hε hS hd
        have q2 := sum_supp_le (n := n) T (f := fun r => if r + 1 < n then |e' r - e r| else 0) hε hT (by
          intro j _
          by_cases c : j + 1 < n
          · rw [if_pos c]; exact he j c
          · rw [if_neg c]; split_ifs
            · exact hε
            · exact le_rfl)
        have q3 := (pick a _ (abs_nonneg (y' - y))).trans (show (if a < n then |y' - y| else 0) ≤ ε by
          split_ifs
          · exact hy
          · exact hε)
        linarith
    _ = 5 * ε := by push_cast; ring

/-! ## Rotating two columns of a factor -/

/-- The error of one entry of a rotated pair. -/
theorem rot_lin (hu : 10 * R.uw < 1) {P X P' X' : ℝ} (hP : Rel R 3 P' P) (hX : Rel R 3 X' X) (A B : ℝ) :
    |R.rnd (R.rnd (A * P') + R.rnd (X' * B)) - (A * P + X * B)| ≤ gam R.uw 10 * (|A * P| + |X * B|) := by
  obtain ⟨t, ht, et⟩ := Rel.rnd (R := R) (R.rnd (A * P') + R.rnd (X' * B))
  have r1 : Rel R 10 (R.rnd (A * P') * t) (A * P) :=
    (((Rel.refl 0 A).mul hP).trans (Rel.rnd _) |>.trans ⟨t, ht, rfl⟩).mono (by norm_num)
  have r2 : Rel R 10 (R.rnd (X' * B) * t) (X * B) :=
    ((hX.mul (Rel.refl 0 B)).trans (Rel.rnd _) |>.trans ⟨t, ht, rfl⟩).mono (by norm_num)
  have e1 := r1.err le_rfl hu
  have e2 := r2.err le_rfl hu
  rw [et, add_mul]
  calc _ = |(R.rnd (A * P') * t - A * P) + (R.rnd (X' * B) * t - X * B)| := by congr 1; ring
    _ ≤ _ := (abs_add_le _ _).trans (by linarith)

theorem abs_le_one_left {c s : ℝ} (h : c * c + s * s = 1) : |c| ≤ 1 :=
  abs_le_one_iff_mul_self_le_one.2 (by nlinarith [mul_self_nonneg s])

theorem abs_le_one_right {c s : ℝ} (h : c * c + s * s = 1) : |s| ≤ 1 :=
  abs_le_one_iff_mul_self_le_one.2 (by nlinarith [mul_self_nonneg c])

/-- The rounded rotation of two columns of a rectangular matrix. -/
theorem rotCols_rnd' {m n i j : Nat} (hi : i < n) (hj : j < n) (hij : i ≠ j) (hu : 10 * R.uw < 1)
    {g : GivensRotation (Rnd R)} {c s : ℝ} (h1 : c * c + s * s = 1) (hc : Rel R 3 g.c.v c) (hs : Rel R 3 g.s.v s)
    {q : Arr2 (Rnd R)} (hq : HasShape q m n) :
    frob (toMat m n (Rnd.vals (rotCols g i j q)) - toMat m n (Rnd.vals q) * rotM n i j c s) ≤
      svdRotErr R * frob (toMat m n (Rnd.vals q)) := by
  have hg := gam_nonneg (n := 10) R.uw_nonneg (by exact_mod_cast hu)
  obtain ⟨G, hG⟩ : ∃ G, G = gam R.uw 10 := ⟨_, rfl⟩
  rw [← hG] at hg
  unfold svdRotErr
  rw [← hG]
  let a : Fin n := ⟨i, hi⟩
  let b : Fin n := ⟨j, hj⟩
  have hab : a ≠ b := fun h => by have := Fin.mk.inj_iff.1 h; omega
  obtain ⟨Q, hQ⟩ : ∃ Q, Q = toMat m n (Rnd.vals q) := ⟨_, rfl⟩
  have hqv : ∀ (r : Fin m) (k : Nat) (hk : k < n), (q.get r k).v = Q r ⟨k, hk⟩ := fun r k hk => by rw [hQ]; rfl
  rw [← hQ]
  have lin : ∀ (P X P' X' A B : ℝ), Rel R 3 P' P → Rel R 3 X' X → P * P + X * X = 1 →
      (R.rnd (R.rnd (A * P') + R.rnd (X' * B)) - (A * P + B * X)) ^ 2 ≤ G ^ 2 * (A ^ 2 + B ^ 2) * 2 := by
    intro P X P' X' A B hP hX hPX
    have e3 := rot_lin hu hP hX A B
    rw [← hG] at e3
    rw [← sq_abs, show A * P + B * X = A * P + X * B by ring]
    refine (pow_le_pow_left₀ (abs_nonneg _) e3 2).trans ?_
    have e4 : (|A * P| + |X * B|) ^ 2 ≤ (A ^ 2 + B ^ 2) * 2 := by
      have p1 : P ^ 2 ≤ 1 := by nlinarith
      have p2 : X ^ 2 ≤ 1 := by nlinarith
      have p3 : (A * P) ^ 2 ≤ A ^ 2 := by rw [mul_pow]; nlinarith [sq_nonneg A]
      have p4 : (X * B) ^ 2 ≤ B ^ 2 := by rw [mul_pow]; nlinarith [sq_nonneg B]
      nlinarith [sq_abs (A * P), sq_abs (X * B), sq_nonneg (|A * P| - |X * B|)]
    rw [mul_pow, mul_assoc]
    exact mul_le_mul_of_nonneg_left e4 (sq_nonneg G)
  apply frob_le_of_sq (mul_nonneg (mul_nonneg (by norm_num) hg) (frob_nonneg _))
  have hrow : ∀ r : Fin m, ∑ k, (toMat m n (Rnd.vals (rotCols g i j q)) - Q * rotM n i j c s) r k ^ 2 ≤
      4 * G ^ 2 * ∑ k, Q r k ^ 2 := by
    intro r
    have hval : ∀ k : Fin n, (toMat m n (Rnd.vals (rotCols g i j q)) - Q * rotM n i j c s) r k =
        if (k : Nat) = i then R.rnd (R.rnd (Q r a * g.c.v) + R.rnd (g.s.v * Q r b)) - (Q r a * c + Q r b * s)
        else if (k : Nat) = j then R.rnd (R.rnd (-g.s.v * Q r a) + R.rnd (Q r b * g.c.v)) - (Q r a * -s + Q r b * c)
        else 0 := by
      intro k
      rw [Matrix.sub_apply, mul_rotM_apply hi hj hij]
      simp only [toMat_apply, Rnd.vals, rotCols]
      rw [if_pos (by rw [hq.1]; exact r.2)]
      split_ifs
      · simp only [Rnd.add_v, Rnd.mul_v, hqv r i hi, hqv r j hj, a, b]
      · simp only [Rnd.add_v, Rnd.mul_v, Rnd.neg_v, hqv r i hi, hqv r j hj, a, b]
      · rw [hqv r k k.2, sub_self]
    rw [Fintype.sum_eq_add a b hab]
    · rw [hval a, hval b, if_pos rfl, if_neg (show ¬ (b : Nat) = i from fun h => hij h.symm), if_pos rfl]
      have l1 := lin c s g.c.v g.s.v (Q r a) (Q r b) hc hs h1
      have l2 := lin c (-s) g.c.v (-g.s.v) (Q r b) (Q r a) hc hs.neg (by linarith)
      rw [add_comm (R.rnd (-g.s.v * Q r a)), add_comm (Q r a * -s)]
      have hsub : Q r a ^ 2 + Q r b ^ 2 ≤ ∑ k, Q r k ^ 2 := by
        rw [← Finset.sum_pair hab (f := fun k => Q r k ^ 2)]
        exact Finset.sum_le_sum_of_subset_of_nonneg (Finset.subset_univ _) (fun _ _ _ => sq_nonneg _)
      have := mul_le_mul_of_nonneg_left hsub (by positivity : 0 ≤ 4 * G ^ 2)
      linarith
    · rintro k ⟨k1, k2⟩
      rw [hval k, if_neg (fun h => k1 (Fin.ext h)), if_neg (fun h => k2 (Fin.ext h))]
      ring
  calc _ ≤ ∑ r, 4 * G ^ 2 * ∑ k, Q r k ^ 2 := Finset.sum_le_sum fun r _ => hrow r
    _ = 4 * G ^ 2 * frob Q ^ 2 := by rw [frob_sq, Finset.mul_sum]
    _ ≤ (12 * G * frob Q) ^ 2 := by nlinarith [mul_nonneg (sq_nonneg G) (sq_nonneg (frob Q))]

/-- The factor on the left of the upper bidiagonal matrix: `U`, or `Vtᵀ` for wide matrices. -/
def leftF (p d : Nat) (up : Bool) (s : SvdData (Rnd R)) : Option (Matrix (Fin p) (Fin d) ℝ) :=
  if up then s.u.map fun U => toMat p d (Rnd.vals U) else s.vt.map fun V => (toMat d p (Rnd.vals V))ᵀ

/-- The factor on the right, not transposed: `Vtᵀ`, or `U` for wide matrices. -/
def rightF (d : Nat) (up : Bool) (s : SvdData (Rnd R)) : Option (Matrix (Fin d) (Fin d) ℝ) :=
  if up then s.vt.map fun V => (toMat d d (Rnd.vals V))ᵀ else s.u.map fun U => toMat d d (Rnd.vals U)

section factors
variable {p d i j : Nat} {up cu cv : Bool} {s : SvdData (Rnd R)} {g : GivensRotation (Rnd R)} {c t : ℝ}

theorem leftF_rotR : leftF p d up (s.rotR up g i j) = leftF p d up s := by cases up <;> rfl
theorem rightF_rotL : rightF d up (s.rotL up g i j) = rightF d up s := by cases up <;> rfl
theorem leftF_set (dg o : Arr1 (Rnd R)) : leftF p d up (s.setDiags dg o) = leftF p d up s := rfl
theorem rightF_set (dg o : Arr1 (Rnd R)) : rightF d up (s.setDiags dg o) = rightF d up s := rfl

theorem leftF_rotL (hs : SvdShape (rowsOf p d up) (colsOf p d up) d cu cv s) (hi : i < d) (hj : j < d) (hij : i ≠ j)
    (hu : 10 * R.uw < 1) (h1 : c * c + t * t = 1) (hc : Rel R 3 g.c.v c) (ht : Rel R 3 g.s.v t) :
    ∀ U', leftF p d up (s.rotL up g i j) = some U' → ∃ U, leftF p d up s = some U ∧
      frob (U' - U * rotM d i j c t) ≤ svdRotErr R * frob U := by
  intro U' h
  cases up
  · simp only [leftF, SvdData.rotL, Bool.false_eq_true, if_false, Option.map_eq_some_iff, exists_exists_and_eq_and] at h ⊢
    obtain ⟨V0, hV0, rfl⟩ := h
    have := rotCols_rnd' (m := p) (q := V0.t) hi hj hij hu h1 hc ht ⟨(hs.vt V0 hV0).2, (hs.vt V0 hV0).1⟩
    exact ⟨V0, hV0, this⟩
  · simp only [leftF, SvdData.rotL, if_true, Option.map_eq_some_iff, exists_exists_and_eq_and] at h ⊢
    obtain ⟨U0, hU0, rfl⟩ := h
    exact ⟨U0, hU0, rotCols_rnd' (m := p) hi hj hij hu h1 hc ht (hs.u U0 hU0)⟩

theorem rightF_rotR (hs : SvdShape (rowsOf p d up) (colsOf p d up) d cu cv s) (hi : i < d) (hj : j < d) (hij : i ≠ j)
    (hu : 10 * R.uw < 1) (h1 : c * c + t * t = 1) (hc : Rel R 3 g.c.v c) (ht : Rel R 3 g.s.v t) :
    ∀ V', rightF d up (s.rotR up g i j) = some V' → ∃ V, rightF d up s = some V ∧
      frob (V' - V * rotM d i j c t) ≤ svdRotErr R * frob V := by
  intro V' h
  cases up
  · simp only [rightF, SvdData.rotR, Bool.false_eq_true, if_false, Option.map_eq_some_iff, exists_exists_and_eq_and] at h ⊢
    obtain ⟨U0, hU0, rfl⟩ := h
    exact ⟨U0, hU0, rotCols_rnd' (m := d) hi hj hij hu h1 hc ht (hs.u U0 hU0)⟩
  · simp only [rightF, SvdData.rotR, if_true, Option.map_eq_some_iff, exists_exists_and_eq_and] at h ⊢
    obtain ⟨V0, hV0, rfl⟩ := h
    have := rotCols_rnd' (m := d) (q := V0.t) hi hj hij hu h1 hc ht ⟨(hs.vt V0 hV0).2, (hs.vt V0 hV0).1⟩
    exact ⟨V0, hV0, this⟩

end factors

/-! ## The scalars of one rotation -/

/-- The rotation that `cancel_x` should have returned. -/
structure RotNearX (R : StdModel) (x y : ℝ) (g : GivensRotation (Rnd R)) (r : Rnd R) (c s ρ : ℝ) : Prop where
  one : c * c + s * s = 1
  rx : c * x - s * y = 0
  ry : s * x + c * y = ρ
  pos : 0 < ρ
  sq : ρ * ρ = x * x + y * y
  hc : Rel R 3 g.c.v c
  hs : Rel R 3 g.s.v s
  hr : Rel R 1 r.v ρ

theorem cancelX_rnd {x y : Rnd R} {g : GivensRotation (Rnd R)} {r : Rnd R}
    (h : GivensRotation.cancelX x y = some (g, r)) : ∃ c s ρ, RotNearX R x.v y.v g r c s ρ := by
  unfold GivensRotation.cancelX at h
  rw [Option.map_eq_some_iff] at h
  obtain ⟨⟨g', r'⟩, h1, h2⟩ := h
  simp only [Prod.mk.injEq] at h2
  obtain ⟨rfl, rfl⟩ := h2
  obtain ⟨c, s, ρ, hn⟩ := cancelY_rnd h1
  refine ⟨c, -s, ρ, ?_, ?_, ?_, hn.pos, ?_, hn.hc.mono (by norm_num), ?_, hn.hr⟩
  · linear_combination hn.one
  · linear_combination hn.ry
  · linear_combination hn.rx
  · linear_combination hn.sq
  · have : Rel R 3 (R.rnd (g'.s.v * -1)) (s * -1) := (hn.hs.mul (Rel.refl 0 (-1))).trans (Rel.rnd _)
    simpa using this

theorem cancelX_rnd_none {x y : Rnd R} (h : GivensRotation.cancelX x y = none) : x.v = 0 := by
  unfold GivensRotation.cancelX at h
  rw [Option.map_eq_none_iff] at h
  exact cancelY_rnd_none h

section scalars
variable {c s c' s' β : ℝ}

/-- One entry of a rotated pair, with a bound for the two entries. -/
theorem rot_lin_le (hu : 10 * R.uw < 1) (h1 : c * c + s * s = 1) (hc : Rel R 3 c' c) (hs : Rel R 3 s' s) {a b : ℝ}
    (ha : |a| ≤ β) (hb : |b| ≤ β) :
    |R.rnd (R.rnd (a * c') + R.rnd (s' * b)) - (a * c + s * b)| ≤ 2 * gam R.uw 10 * β := by
  have hg := gam_nonneg (n := 10) R.uw_nonneg (by exact_mod_cast hu)
  refine (rot_lin hu hc hs a b).trans ?_
  have e1 : |a * c| ≤ β := by
    rw [abs_mul]; nlinarith [abs_nonneg a, abs_nonneg c, abs_le_one_left h1]
  have e2 : |s * b| ≤ β := by
    rw [abs_mul]; nlinarith [abs_nonneg b, abs_nonneg s, abs_le_one_right h1]
  nlinarith

theorem rot_mul_le (hu : 10 * R.uw < 1) (h1 : |c| ≤ 1) (hc : Rel R 3 c' c) {a : ℝ} (ha : |a| ≤ β) :
    |R.rnd (a * c') - a * c| ≤ 2 * gam R.uw 10 * β := by
  have hg := gam_nonneg (n := 10) R.uw_nonneg (by exact_mod_cast hu)
  have e := (((Rel.refl (R := R) 0 a).mul hc).trans (Rel.rnd _)).err (by norm_num) hu
  have e1 : |a * c| ≤ β := by
    rw [abs_mul]; nlinarith [abs_nonneg a, abs_nonneg c]
  have : 0 ≤ β := (abs_nonneg _).trans ha
  nlinarith [mul_nonneg hg this]

theorem rot_norm_le (hu : 10 * R.uw < 1) {x y ρ r : ℝ} (hr : Rel R 1 r ρ) (hp : 0 < ρ)
    (hsq : ρ * ρ = x * x + y * y) (hx : |x| ≤ β) (hy : |y| ≤ β) : |r - ρ| ≤ 2 * gam R.uw 10 * β := by
  have hg := gam_nonneg (n := 10) R.uw_nonneg (by exact_mod_cast hu)
  have e := hr.err (by norm_num) hu
  have hβ : 0 ≤ β := (abs_nonneg _).trans hx
  have e1 : ρ ≤ 2 * β := by
    have h1 := sq_le_sq' (abs_le.1 hx).1 (abs_le.1 hx).2
    have h2 := sq_le_sq' (abs_le.1 hy).1 (abs_le.1 hy).2
    nlinarith
  rw [abs_of_pos hp] at e
  nlinarith [mul_le_mul_of_nonneg_left e1 hg]

end scalars

/-! ## The steps on the bidiagonal matrix -/

theorem abs_biM_le {n a b : Nat} (d e : Nat → ℝ) (y : ℝ) (ha : a < n) (hb : b < n) (hab : a ≠ b)
    (hab' : b = a + 1 → e a = 0) : |y| ≤ frob (biM n d e a b y) := by
  have h : biM n d e a b y ⟨a, ha⟩ ⟨b, hb⟩ = y := by
    by_cases c : b = a + 1
    · simp [biM, biF, if_neg hab, hab' c]
    · simp [biM, biF, if_neg hab, if_neg c]
  have := abs_le_frob (biM n d e a b y) ⟨a, ha⟩ ⟨b, hb⟩
  rwa [h] at this

theorem abs_biM_diag_le {n a b : Nat} (d e : Nat → ℝ) (y : ℝ) {k : Nat} (hk : k < n) (h : k = a → k = b → y = 0) :
    |d k| ≤ frob (biM n d e a b y) := by
  have h' : biM n d e a b y ⟨k, hk⟩ ⟨k, hk⟩ = d k := by
    by_cases c : k = a ∧ k = b
    · simp [biM, biF, h c.1 c.2]
    · simp [biM, biF, if_neg c]
  have := abs_le_frob (biM n d e a b y) ⟨k, hk⟩ ⟨k, hk⟩
  rwa [h'] at this

theorem abs_biM_off_le {n a b : Nat} (d e : Nat → ℝ) (y : ℝ) {k : Nat} (hk : k + 1 < n)
    (h : k = a → k + 1 = b → y = 0) : |e k| ≤ frob (biM n d e a b y) := by
  have h' : biM n d e a b y ⟨k, by omega⟩ ⟨k + 1, hk⟩ = e k := by
    by_cases c : k = a ∧ k + 1 = b
    · simp [biM, biF, h c.1 c.2]
    · simp [biM, biF, if_neg c]
  have := abs_le_frob (biM n d e a b y) ⟨k, by omega⟩ ⟨k + 1, hk⟩
  rwa [h'] at this

theorem zero_le_if {P : Prop} [Decidable P] {ε : ℝ} (hε : 0 ≤ ε) : (0 : ℝ) ≤ if P then ε else 0 := by
  split_ifs
  · exact hε
  · exact le_rfl

theorem hstep_near {n i k : Nat} (hik : i ≤ k) (hk : k + 1 < n) {c s v y' ε : ℝ} {d e d' e' : Nat → ℝ} (hε : 0 ≤ ε)
    (hdi : d i = 0) (hei : e i = 0) (hv : c * v - s * d (k + 1) = 0)
    (hd : ∀ j, j ≠ k + 1 → d' j = d j) (hd1 : |d' (k + 1) - (s * v + c * d (k + 1))| ≤ ε)
    (he : ∀ j, j ≠ k + 1 → e' j = e j) (he1 : k + 2 < n → |e' (k + 1) - e (k + 1) * c| ≤ ε)
    (hy : k + 2 < n → |y' - -s * e (k + 1)| ≤ ε) :
    frob (biM n d' e' i (k + 2) y' - rotM n i (k + 1) c s * biM n d e i (k + 1) v) ≤ 5 * ε := by
  obtain ⟨D, hD⟩ : ∃ D : Nat → ℝ, D = fun j => if j = k + 1 then s * v + c * d (k + 1) else d j := ⟨_, rfl⟩
  obtain ⟨F, hF⟩ : ∃ F : Nat → ℝ, F = fun j => if j = k + 1 then e (k + 1) * c else e j := ⟨_, rfl⟩
  obtain ⟨y, hyy⟩ : ∃ y : ℝ, y = if k + 2 < n then -s * e (k + 1) else y' := ⟨_, rfl⟩
  rw [hstep_matrix (d' := D) (e' := F) (y' := y) hik hk hdi hei hv
    (fun j hj => by rw [hD]; simp only [if_neg hj]) (by rw [hD]; simp)
    (fun j hj => by rw [hF]; simp only [if_neg hj]) (fun _ => by rw [hF]; simp)
    (fun h => by rw [hyy, if_pos h])]
  refine biM_near hε {k + 1} {k + 1} (by simp) (by simp) ?_ ?_ ?_
  · intro j _
    rw [hD]
    by_cases c1 : j = k + 1
    · subst c1; simpa using hd1
    · simp [if_neg c1, hd j c1]
  · intro j hj
    rw [hF]
    by_cases c1 : j = k + 1
    · subst c1; simpa using he1 hj
    · simp [if_neg c1, he j c1]
  · rw [hyy]
    split_ifs with h
    · exact hy h
    · simpa using hε

theorem vstep_near {n i k : Nat} (hik : k ≤ i) (hi : i + 1 < n) {c s v y' ε : ℝ} {d e d' e' : Nat → ℝ} (hε : 0 ≤ ε)
    (hdi : d (i + 1) = 0) (hei : e i = 0) (hv : s * d k + c * v = 0)
    (hd : ∀ j, j ≠ k → d' j = d j) (hd1 : |d' k - (c * d k - s * v)| ≤ ε)
    (he : ∀ j, j + 1 ≠ k → e' j = e j) (he1 : ∀ j, j + 1 = k → |e' j - e j * c| ≤ ε)
    (hy : ∀ j, j + 1 = k → |y' - s * e j| ≤ ε) (hy0 : k = 0 → y' = 0) :
    frob (biM n d' e' (k - 1) (i + 1) y' - biM n d e k (i + 1) v * rotM n k (i + 1) c (-s)) ≤ 5 * ε := by
  obtain ⟨D, hD⟩ : ∃ D : Nat → ℝ, D = fun j => if j = k then c * d k - s * v else d j := ⟨_, rfl⟩
  obtain ⟨F, hF⟩ : ∃ F : Nat → ℝ, F = fun j => if j + 1 = k then e j * c else e j := ⟨_, rfl⟩
  obtain ⟨y, hyy⟩ : ∃ y : ℝ, y = if k = 0 then 0 else s * e (k - 1) := ⟨_, rfl⟩
  rw [vstep_matrix (d' := D) (e' := F) (y' := y) hik hi hdi hei hv
    (fun j hj => by rw [hD]; simp only [if_neg hj]) (by rw [hD]; simp)
    (fun j hj => by rw [hF]; simp only [if_neg hj]) (fun j hj => by rw [hF]; simp only [if_pos hj])
    (fun j hj => by rw [hyy, if_neg (by omega), show k - 1 = j by omega]) (fun h => by rw [hyy, if_pos h])]
  refine biM_near hε {k} {k - 1} (by simp) (by simp) ?_ ?_ ?_
  · intro j _
    rw [hD]
    by_cases c1 : j = k
    · subst c1; simpa using hd1
    · simp [if_neg c1, hd j c1]
  · intro j hj
    rw [hF]
    by_cases c1 : j + 1 = k
    · rw [if_pos (by rw [Finset.mem_singleton]; omega)]
      simpa only [if_pos c1] using he1 j c1
    · simp only [if_neg c1, he j c1, sub_self, abs_zero]; exact zero_le_if hε
  · rw [hyy]
    split_ifs with h
    · rw [hy0 h]; simpa using hε
    · exact hy (k - 1) (by omega)

theorem sweep1_near {n k : Nat} (hk : k + 1 < n) {c s y v ε : ℝ} {d e d' e' : Nat → ℝ} (hε : 0 ≤ ε)
    (hy : ∀ j, j + 1 = k → s * e j + c * y = 0) (hy0 : k = 0 → y = 0)
    (hd : ∀ j, j ≠ k → j ≠ k + 1 → d' j = d j) (hd1 : |d' k - (c * d k - s * e k)| ≤ ε)
    (hd2 : |d' (k + 1) - c * d (k + 1)| ≤ ε)
    (he : ∀ j, j + 1 ≠ k → j ≠ k → e' j = e j) (he1 : ∀ j, j + 1 = k → |e' j - (c * e j - s * y)| ≤ ε)
    (he2 : |e' k - (s * d k + c * e k)| ≤ ε) (hv : |v - -s * d (k + 1)| ≤ ε) :
    frob (biM n d' e' (k + 1) k v - biM n d e (k - 1) (k + 1) y * rotM n k (k + 1) c (-s)) ≤ 5 * ε := by
  obtain ⟨D, hD⟩ : ∃ D : Nat → ℝ, D = fun j => if j = k then c * d k - s * e k else if j = k + 1 then
    c * d (k + 1) else d j := ⟨_, rfl⟩
  obtain ⟨F, hF⟩ : ∃ F : Nat → ℝ, F = fun j => if j + 1 = k then c * e j - s * y else if j = k then
    s * d k + c * e k else e j := ⟨_, rfl⟩
  rw [sweep_matrix1 (d' := D) (e' := F) hk hy hy0
    (fun j h1 h2 => by rw [hD]; simp only [if_neg h1, if_neg h2]) (by rw [hD]; simp) (by rw [hD]; simp)
    (fun j h1 h2 => by rw [hF]; simp only [if_neg h1, if_neg h2]) (fun j h1 => by rw [hF]; simp only [if_pos h1])
    (by rw [hF]; simp)]
  refine biM_near hε {k, k + 1} {k - 1, k} Finset.card_le_two Finset.card_le_two ?_ ?_ hv
  · intro j _
    rw [hD]
    by_cases c1 : j = k
    · subst c1; simpa using hd1
    · by_cases c2 : j = k + 1
      · subst c2; simpa using hd2
      · simp only [if_neg c1, if_neg c2, hd j c1 c2, sub_self, abs_zero]; exact zero_le_if hε
  · intro j _
    rw [hF]
    by_cases c1 : j + 1 = k
    · rw [if_pos (by rw [Finset.mem_insert]; left; omega)]
      simpa only [if_pos c1] using he1 j c1
    · by_cases c2 : j = k
      · subst c2; simpa using he2
      · simp only [if_neg c1, if_neg c2, he j c1 c2, sub_self, abs_zero]; exact zero_le_if hε

theorem sweep2_near {n k : Nat} (hk : k + 1 < n) {c s v y' ε : ℝ} {d e d' e' : Nat → ℝ} (hε : 0 ≤ ε)
    (hv : s * d k + c * v = 0)
    (hd : ∀ j, j ≠ k → j ≠ k + 1 → d' j = d j) (hd1 : |d' k - (c * d k - s * v)| ≤ ε)
    (hd2 : |d' (k + 1) - (s * e k + c * d (k + 1))| ≤ ε)
    (he : ∀ j, j ≠ k → j ≠ k + 1 → e' j = e j) (he1 : |e' k - (c * e k - s * d (k + 1))| ≤ ε)
    (he2 : k + 2 < n → |e' (k + 1) - c * e (k + 1)| ≤ ε) (hy : k + 2 < n → |y' - -s * e (k + 1)| ≤ ε) :
    frob (biM n d' e' k (k + 2) y' - rotM n k (k + 1) c s * biM n d e (k + 1) k v) ≤ 5 * ε := by
  obtain ⟨D, hD⟩ : ∃ D : Nat → ℝ, D = fun j => if j = k then c * d k - s * v else if j = k + 1 then
    s * e k + c * d (k + 1) else d j := ⟨_, rfl⟩
  obtain ⟨F, hF⟩ : ∃ F : Nat → ℝ, F = fun j => if j = k then c * e k - s * d (k + 1) else if j = k + 1 then
    c * e (k + 1) else e j := ⟨_, rfl⟩
  obtain ⟨y, hyy⟩ : ∃ y : ℝ, y = if k + 2 < n then -s * e (k + 1) else y' := ⟨_, rfl⟩
  rw [sweep_matrix2 (d' := D) (e' := F) (y' := y) hk hv
    (fun j h1 h2 => by rw [hD]; simp only [if_neg h1, if_neg h2]) (by rw [hD]; simp) (by rw [hD]; simp)
    (fun j h1 h2 => by rw [hF]; simp only [if_neg h1, if_neg h2]) (by rw [hF]; simp) (fun _ => by rw [hF]; simp)
    (fun h => by rw [hyy, if_pos h])]
  refine biM_near hε {k, k + 1} {k, k + 1} Finset.card_le_two Finset.card_le_two ?_ ?_ ?_
  · intro j _
    rw [hD]
    by_cases c1 : j = k
    · subst c1; simpa using hd1
    · by_cases c2 : j = k + 1
      · subst c2; simpa using hd2
      · simp only [if_neg c1, if_neg c2, hd j c1 c2, sub_self, abs_zero]; exact zero_le_if hε
  · intro j hj
    rw [hF]
    by_cases c1 : j = k
    · subst c1; simpa using he1
    · by_cases c2 : j = k + 1
      · subst c2; simpa using he2 hj
      · simp only [if_neg c1, if_neg c2, he j c1 c2, sub_self, abs_zero]; exact zero_le_if hε
  · rw [hyy]
    split_ifs with h
    · exact hy h
    · simpa using hε

end LinfaLinalg
