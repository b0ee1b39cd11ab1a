import Verif.Proofs.RoundedGivens
import Verif.Proofs.RoundedTridiag

/-! # Rounding errors of `symmetric_eig` -/

set_option linter.unusedSimpArgs false
set_option linter.unusedSectionVars false

namespace LinfaLinalg

open Matrix

variable {R : StdModel}

/-! ## Backward error of a sequence of orthogonal similarities -/

/-- `X` is orthogonally similar to a matrix within `(G - 1) ‖A‖_F` of `A`. -/
def Simil (n : Nat) (A X : Matrix (Fin n) (Fin n) ℝ) (G : ℝ) : Prop :=
  ∃ P : Matrix (Fin n) (Fin n) ℝ, Pᵀ * P = 1 ∧ frob (A - P * X * Pᵀ) ≤ (G - 1) * frob A

theorem Simil.norm {n : Nat} {A X : Matrix (Fin n) (Fin n) ℝ} {G : ℝ} (h : Simil n A X G) : frob X ≤ G * frob A := by
  obtain ⟨P, h1, h2⟩ := h
  have e1 : frob (P * X * Pᵀ) = frob X := by
    rw [frob_mul_orth (by rw [Matrix.transpose_transpose]; exact h1), frob_orth_mul h1]
  have e2 := frob_sub_le (P * X * Pᵀ) A 0
  rw [sub_zero, sub_zero, e1, ← frob_neg (P * X * Pᵀ - A), neg_sub] at e2
  linarith

theorem Simil.mono {n : Nat} {A X : Matrix (Fin n) (Fin n) ℝ} {G G' : ℝ} (h : Simil n A X G) (hG : G ≤ G') :
    Simil n A X G' := by
  obtain ⟨P, h1, h2⟩ := h
  exact ⟨P, h1, h2.trans (mul_le_mul_of_nonneg_right (by linarith) (frob_nonneg _))⟩

theorem simil_step {n : Nat} {A X X' W P : Matrix (Fin n) (Fin n) ℝ} {G ε : ℝ} (h1 : Pᵀ * P = 1)
    (h2 : frob (A - P * X * Pᵀ) ≤ (G - 1) * frob A) (hW : Wᵀ * W = 1) (hε : 0 ≤ ε)
    (hX : frob (X' - W * X * Wᵀ) ≤ ε * frob X) : (P * Wᵀ)ᵀ * (P * Wᵀ) = 1 ∧
      frob (A - P * Wᵀ * X' * (P * Wᵀ)ᵀ) ≤ ((1 + ε) * G - 1) * frob A := by
  have hn := Simil.norm ⟨P, h1, h2⟩
  have hW' : W * Wᵀ = 1 := mul_eq_one_comm.1 hW
  have hP' : (P * Wᵀ)ᵀ * (P * Wᵀ) = 1 := by
    rw [Matrix.transpose_mul, Matrix.transpose_transpose, Matrix.mul_assoc, ← Matrix.mul_assoc Pᵀ, h1, Matrix.one_mul,
      hW']
  refine ⟨hP', ?_⟩
  have e1 : P * Wᵀ * (W * X * Wᵀ) * (P * Wᵀ)ᵀ = P * X * Pᵀ := by
    rw [Matrix.transpose_mul, Matrix.transpose_transpose]
    calc P * Wᵀ * (W * X * Wᵀ) * (W * Pᵀ) = P * (Wᵀ * W) * X * (Wᵀ * W) * Pᵀ := by simp only [Matrix.mul_assoc]
      _ = _ := by rw [hW, Matrix.mul_one, Matrix.mul_one]
  have e2 := frob_sub_le A (P * X * Pᵀ) (P * Wᵀ * X' * (P * Wᵀ)ᵀ)
  rw [← e1, ← Matrix.sub_mul, ← Matrix.mul_sub, frob_mul_orth (by rw [Matrix.transpose_transpose]; exact hP'),
    frob_orth_mul hP', e1, ← frob_neg (W * X * Wᵀ - X'), neg_sub] at e2
  have e3 : ε * frob X ≤ ε * (G * frob A) := mul_le_mul_of_nonneg_left hn hε
  nlinarith

theorem Simil.step {n : Nat} {A X X' W : Matrix (Fin n) (Fin n) ℝ} {G ε : ℝ} (h : Simil n A X G)
    (hW : Wᵀ * W = 1) (hε : 0 ≤ ε) (hX : frob (X' - W * X * Wᵀ) ≤ ε * frob X) : Simil n A X' ((1 + ε) * G) := by
  obtain ⟨P, h1, h2⟩ := h
  exact ⟨P * Wᵀ, simil_step h1 h2 hW hε hX⟩

theorem Simil.perturb {n : Nat} {A X X' : Matrix (Fin n) (Fin n) ℝ} {G ε : ℝ} (h : Simil n A X G)
    (hε : 0 ≤ ε) (hX : frob (X' - X) ≤ ε * frob X) : Simil n A X' ((1 + ε) * G) :=
  h.step (W := 1) (by simp) hε (by simpa using hX)

/-- The eigenvector matrix, if any, is nearly orthogonal. -/
def OptNear (n : Nat) (q : Option (Arr2 (Rnd R))) (H : ℝ) : Prop :=
  ∀ Q, q = some Q → NearOrth n (toMat n n (Rnd.vals Q)) H

theorem OptNear.mono {n : Nat} {q : Option (Arr2 (Rnd R))} {H H' : ℝ} (h : OptNear n q H) (hH : H ≤ H') :
    OptNear n q H' := fun Q hQ => (h Q hQ).mono hH

/-- `X` is similar to a matrix near `A`, by an orthogonal matrix `P`, and the eigenvector matrix, if any, is near
`O P`. While all rotations of the eigenvectors are those of `X`, `O = 1`. -/
def SimQ (n : Nat) (A X O : Matrix (Fin n) (Fin n) ℝ) (q : Option (Arr2 (Rnd R))) (G H : ℝ) : Prop :=
  ∃ P : Matrix (Fin n) (Fin n) ℝ, Pᵀ * P = 1 ∧ frob (A - P * X * Pᵀ) ≤ (G - 1) * frob A ∧
    ∀ Q, q = some Q → frob (toMat n n (Rnd.vals Q) - O * P) ≤ (H - 1) * Real.sqrt n

theorem SimQ.sim {n : Nat} {A X O : Matrix (Fin n) (Fin n) ℝ} {q : Option (Arr2 (Rnd R))} {G H : ℝ}
    (h : SimQ n A X O q G H) : Simil n A X G := by
  obtain ⟨P, h1, h2, -⟩ := h
  exact ⟨P, h1, h2⟩

theorem orth_prod {n : Nat} {O P : Matrix (Fin n) (Fin n) ℝ} (hO : Oᵀ * O = 1) (hP : Pᵀ * P = 1) :
    (O * P)ᵀ * (O * P) = 1 := by
  rw [Matrix.transpose_mul, Matrix.mul_assoc, ← Matrix.mul_assoc Oᵀ, hO, Matrix.one_mul, hP]

theorem SimQ.near {n : Nat} {A X O : Matrix (Fin n) (Fin n) ℝ} {q : Option (Arr2 (Rnd R))} {G H : ℝ}
    (h : SimQ n A X O q G H) (hO : Oᵀ * O = 1) : OptNear n q H := by
  obtain ⟨P, h1, -, h3⟩ := h
  exact fun Q hQ => ⟨O * P, orth_prod hO h1, h3 Q hQ⟩

theorem SimQ.mono {n : Nat} {A X O : Matrix (Fin n) (Fin n) ℝ} {q : Option (Arr2 (Rnd R))} {G G' H H' : ℝ}
    (h : SimQ n A X O q G H) (hG : G ≤ G') (hH : H ≤ H') : SimQ n A X O q G' H' := by
  obtain ⟨P, h1, h2, h3⟩ := h
  exact ⟨P, h1, h2.trans (mul_le_mul_of_nonneg_right (by linarith) (frob_nonneg _)),
    fun Q hQ => (h3 Q hQ).trans (mul_le_mul_of_nonneg_right (by linarith) (Real.sqrt_nonneg _))⟩

theorem near_step {n : Nat} {Q Q' Y W : Matrix (Fin n) (Fin n) ℝ} {H η : ℝ} (hY : Yᵀ * Y = 1)
    (h : frob (Q - Y) ≤ (H - 1) * Real.sqrt n) (hW : Wᵀ * W = 1) (hη : 0 ≤ η) (hQ : frob (Q' - Q * Wᵀ) ≤ η * frob Q) :
    frob (Q' - Y * Wᵀ) ≤ ((1 + η) * H - 1) * Real.sqrt n := by
  have e1 := frob_sub_le Q' (Q * Wᵀ) (Y * Wᵀ)
  rw [← Matrix.sub_mul, frob_mul_orth (by rw [Matrix.transpose_transpose]; exact hW)] at e1
  have e2 := frob_sub_le Q Y 0
  rw [sub_zero, sub_zero, frob_orth hY] at e2
  have e3 : η * frob Q ≤ η * (H * Real.sqrt n) := mul_le_mul_of_nonneg_left (by linarith) hη
  nlinarith

theorem SimQ.step {n : Nat} {A X X' O W : Matrix (Fin n) (Fin n) ℝ} {q q' : Option (Arr2 (Rnd R))} {G H ε η : ℝ}
    (h : SimQ n A X O q G H) (hO : Oᵀ * O = 1) (hW : Wᵀ * W = 1) (hε : 0 ≤ ε) (hη : 0 ≤ η)
    (hX : frob (X' - W * X * Wᵀ) ≤ ε * frob X)
    (hq : ∀ Q', q' = some Q' → ∃ Q, q = some Q ∧
      frob (toMat n n (Rnd.vals Q') - toMat n n (Rnd.vals Q) * Wᵀ) ≤ η * frob (toMat n n (Rnd.vals Q))) :
    SimQ n A X' O q' ((1 + ε) * G) ((1 + η) * H) := by
  obtain ⟨P, h1, h2, h3⟩ := h
  obtain ⟨p1, p2⟩ := simil_step h1 h2 hW hε hX
  refine ⟨P * Wᵀ, p1, p2, fun Q' hQ' => ?_⟩
  obtain ⟨Q, hQ, hd⟩ := hq Q' hQ'
  rw [← Matrix.mul_assoc]
  exact near_step (orth_prod hO h1) (h3 Q hQ) hW hη hd

/-- The eigenvectors are rotated by another matrix. -/
theorem SimQ.switch {n : Nat} {A X X' O W V : Matrix (Fin n) (Fin n) ℝ} {q q' : Option (Arr2 (Rnd R))} {G H ε η : ℝ}
    (h : SimQ n A X O q G H) (hO : Oᵀ * O = 1) (hW : Wᵀ * W = 1) (hV : Vᵀ * V = 1) (hε : 0 ≤ ε) (hη : 0 ≤ η)
    (hX : frob (X' - W * X * Wᵀ) ≤ ε * frob X)
    (hq : ∀ Q', q' = some Q' → ∃ Q, q = some Q ∧
      frob (toMat n n (Rnd.vals Q') - toMat n n (Rnd.vals Q) * Vᵀ) ≤ η * frob (toMat n n (Rnd.vals Q))) :
    ∃ O', O'ᵀ * O' = 1 ∧ SimQ n A X' O' q' ((1 + ε) * G) ((1 + η) * H) := by
  obtain ⟨P, h1, h2, h3⟩ := h
  obtain ⟨p1, p2⟩ := simil_step h1 h2 hW hε hX
  have hP' : (Pᵀ)ᵀ * Pᵀ = 1 := by rw [Matrix.transpose_transpose]; exact mul_eq_one_comm.1 h1
  have hV' : (Vᵀ)ᵀ * Vᵀ = 1 := by rw [Matrix.transpose_transpose]; exact mul_eq_one_comm.1 hV
  refine ⟨O * P * Vᵀ * (W * Pᵀ), orth_prod (orth_prod (orth_prod hO h1) hV') (orth_prod hW hP'), P * Wᵀ, p1, p2,
    fun Q' hQ' => ?_⟩
  obtain ⟨Q, hQ, hd⟩ := hq Q' hQ'
  have e : O * P * Vᵀ * (W * Pᵀ) * (P * Wᵀ) = O * P * Vᵀ := by
    calc O * P * Vᵀ * (W * Pᵀ) * (P * Wᵀ) = O * P * Vᵀ * (W * (Pᵀ * P) * Wᵀ) := by simp only [Matrix.mul_assoc]
      _ = _ := by rw [h1, Matrix.mul_one, mul_eq_one_comm.1 hW, Matrix.mul_one]
  rw [e]
  exact near_step (orth_prod hO h1) (h3 Q hQ) hV hη hd

/-- An absolute perturbation of `X`. -/
theorem SimQ.shift {n : Nat} {A X X' O : Matrix (Fin n) (Fin n) ℝ} {q : Option (Arr2 (Rnd R))} {G H ε : ℝ}
    (h : SimQ n A X O q G H) (hX : frob (X' - X) ≤ ε * (G * frob A)) :
    SimQ n A X' O q ((1 + ε) * G) H := by
  obtain ⟨P, h1, h2, h3⟩ := h
  refine ⟨P, h1, ?_, h3⟩
  have e2 := frob_sub_le A (P * X * Pᵀ) (P * X' * Pᵀ)
  rw [← Matrix.sub_mul, ← Matrix.mul_sub, frob_mul_orth (by rw [Matrix.transpose_transpose]; exact h1),
    frob_orth_mul h1, ← frob_neg (X - X'), neg_sub] at e2
  linarith

theorem SimQ.perturb {n : Nat} {A X X' O : Matrix (Fin n) (Fin n) ℝ} {q : Option (Arr2 (Rnd R))} {G H ε : ℝ}
    (h : SimQ n A X O q G H) (hε : 0 ≤ ε) (hX : frob (X' - X) ≤ ε * frob X) : SimQ n A X' O q ((1 + ε) * G) H := by
  obtain ⟨P, h1, h2, h3⟩ := h
  have h4 := simil_step (W := 1) (X' := X') h1 h2 (by simp) hε (by simpa using hX)
  rw [Matrix.transpose_one, Matrix.mul_one] at h4
  exact ⟨P, h4.1, h4.2, h3⟩

/-- Rotating two columns of the eigenvector matrix. -/
theorem rot_opt {n i : Nat} {q : Option (Arr2 (Rnd R))} (hq : OptShape q n n)
    (hi : i + 1 < n) (hu : 10 * R.uw < 1) {g : GivensRotation (Rnd R)} {c s : ℝ}
    (h1 : c * c + s * s = 1) (hc : Rel R 2 g.c.v c) (hs : Rel R 2 g.s.v (-s)) :
    ∀ Q', q.map (rotCols g i (i + 1)) = some Q' → ∃ Q, q = some Q ∧
      frob (toMat n n (Rnd.vals Q') - toMat n n (Rnd.vals Q) * (rotM n i (i + 1) c s)ᵀ) ≤
        rotErr R * frob (toMat n n (Rnd.vals Q)) := by
  intro Q' hQ
  rw [Option.map_eq_some_iff] at hQ
  obtain ⟨Q0, e0, rfl⟩ := hQ
  refine ⟨Q0, e0, ?_⟩
  rw [rotM_transpose _ _ _ (by omega)]
  exact rotCols_rnd hi hu (by linarith) hc hs (hq Q0 e0)

/-! ## One rotation of the sweep -/

theorem frob_le_block {n i : Nat} {E : Matrix (Fin n) (Fin n) ℝ} {ε : ℝ} (hε : 0 ≤ ε)
    (h : ∀ r k, |E r k| ≤ ε)
    (h0 : ∀ r k : Fin n, ¬ (i ≤ (r : Nat) + 1 ∧ (r : Nat) ≤ i + 2 ∧ i ≤ (k : Nat) + 1 ∧ (k : Nat) ≤ i + 2) → E r k = 0) :
    frob E ≤ 4 * ε := by
  have hcard : (Finset.univ.filter fun r : Fin n => i ≤ (r : Nat) + 1 ∧ (r : Nat) ≤ i + 2).card ≤ 4 := by
    refine (Finset.card_le_card_of_injOn (t := Finset.Icc (i - 1) (i + 2)) (fun r : Fin n => (r : Nat)) ?_ ?_).trans ?_
    · intro r hr
      simp only [Finset.coe_filter, Finset.mem_univ, true_and, Set.mem_ofPred_eq] at hr
      simp only [Finset.coe_Icc, Set.mem_Icc]
      omega
    · intro r _ k _ hrk
      exact Fin.ext hrk
    · rw [Nat.card_Icc]; omega
  apply frob_le_of_sq (by linarith)
  have e1 : ∀ r k : Fin n, E r k ^ 2 ≤ (if i ≤ (r : Nat) + 1 ∧ (r : Nat) ≤ i + 2 then
      (if i ≤ (k : Nat) + 1 ∧ (k : Nat) ≤ i + 2 then ε ^ 2 else 0) else 0) := by
    intro r k
    split_ifs with h1 h2
    · rw [← sq_abs]; exact pow_le_pow_left₀ (abs_nonneg _) (h r k) 2
    · rw [h0 r k (by omega)]; norm_num
    · rw [h0 r k (by omega)]; norm_num
  calc ∑ r, ∑ k, E r k ^ 2 ≤ ∑ r : Fin n, ∑ k : Fin n, (if i ≤ (r : Nat) + 1 ∧ (r : Nat) ≤ i + 2 then
      (if i ≤ (k : Nat) + 1 ∧ (k : Nat) ≤ i + 2 then ε ^ 2 else 0) else 0) :=
        Finset.sum_le_sum fun r _ => Finset.sum_le_sum fun k _ => e1 r k
    _ = ∑ r : Fin n, (if i ≤ (r : Nat) + 1 ∧ (r : Nat) ≤ i + 2 then
        ((Finset.univ.filter fun r : Fin n => i ≤ (r : Nat) + 1 ∧ (r : Nat) ≤ i + 2).card : ℝ) * ε ^ 2 else 0) := by
        refine Finset.sum_congr rfl fun r _ => ?_
        split_ifs
        · rw [← Finset.sum_filter, Finset.sum_const, nsmul_eq_mul]
        · simp
    _ = ((Finset.univ.filter fun r : Fin n => i ≤ (r : Nat) + 1 ∧ (r : Nat) ≤ i + 2).card : ℝ) *
        (((Finset.univ.filter fun r : Fin n => i ≤ (r : Nat) + 1 ∧ (r : Nat) ≤ i + 2).card : ℝ) * ε ^ 2) := by
        rw [← Finset.sum_filter, Finset.sum_const, nsmul_eq_mul]
    _ ≤ 4 * (4 * ε ^ 2) := by
        have hc : ((Finset.univ.filter fun r : Fin n => i ≤ (r : Nat) + 1 ∧ (r : Nat) ≤ i + 2).card : ℝ) ≤ 4 := by
          exact_mod_cast hcard
        gcongr
    _ = (4 * ε) ^ 2 := by ring

theorem sweep_near {n i : Nat} (hi : i + 1 < n) {c s : ℝ} {d e d' e' : Nat → ℝ} {y y' ε : ℝ} (hε : 0 ≤ ε)
    (hd : ∀ k, k ≠ i → k ≠ i + 1 → d' k = d k)
    (hd1 : |d' i - (c * c * d i + s * s * d (i + 1) - 2 * (c * s * e i))| ≤ ε)
    (hd2 : |d' (i + 1) - (s * s * d i + c * c * d (i + 1) + 2 * (c * s * e i))| ≤ ε)
    (he : ∀ k, k ≠ i → k ≠ i + 1 → k + 1 ≠ i → e' k = e k)
    (he0 : ∀ k, k + 1 = i → |e' k - (c * e k - s * y)| ≤ ε)
    (hy : ∀ k, k + 1 = i → s * e k + c * y = 0)
    (he1 : |e' i - (c * s * (d i - d (i + 1)) + e i * (c * c - s * s))| ≤ ε)
    (he2 : |e' (i + 1) - e (i + 1) * c| ≤ ε)
    (hy' : |y' - -s * e (i + 1)| ≤ ε) :
    frob (triB n d' e' (i + 1) y' -
      rotM n i (i + 1) c s * triB n d e i y * (rotM n i (i + 1) c s)ᵀ) ≤ 4 * ε := by
  obtain ⟨D, hD⟩ : ∃ D : Nat → ℝ, D = fun k => if k = i then c * c * d i + s * s * d (i + 1) - 2 * (c * s * e i)
    else if k = i + 1 then s * s * d i + c * c * d (i + 1) + 2 * (c * s * e i) else d k := ⟨_, rfl⟩
  obtain ⟨F, hF⟩ : ∃ F : Nat → ℝ, F = fun k => if k = i then c * s * (d i - d (i + 1)) + e i * (c * c - s * s)
    else if k = i + 1 then e (i + 1) * c else if k + 1 = i then c * e k - s * y else e k := ⟨_, rfl⟩
  have hm : rotM n i (i + 1) c s * triB n d e i y * (rotM n i (i + 1) c s)ᵀ =
      triB n D F (i + 1) (-s * e (i + 1)) := by
    apply sweep_matrix hi
    · intro k k1 k2; rw [hD]; simp only [if_neg k1, if_neg k2]
    · rw [hD]; simp
    · rw [hD]; simp
    · intro k k1 k2 k3; rw [hF]; simp only [if_neg k1, if_neg k2, if_neg k3]
    · intro k k1; rw [hF]; simp only [if_neg (show ¬ k = i by omega), if_neg (show ¬ k = i + 1 by omega), if_pos k1]
    · exact hy
    · rw [hF]; simp
    · rw [hF]; simp
    · rfl
  rw [hm]
  have dD : ∀ k, |d' k - D k| ≤ ε := by
    intro k
    rw [hD]
    by_cases k1 : k = i
    · subst k1; simpa using hd1
    · by_cases k2 : k = i + 1
      · subst k2; simpa using hd2
      · simp only [if_neg k1, if_neg k2, hd k k1 k2, sub_self, abs_zero]; exact hε
  have dD0 : ∀ k, k ≠ i → k ≠ i + 1 → d' k - D k = 0 := by
    intro k k1 k2
    rw [hD]
    simp only [if_neg k1, if_neg k2, hd k k1 k2, sub_self]
  have dF : ∀ k, |e' k - F k| ≤ ε := by
    intro k
    rw [hF]
    by_cases k1 : k = i
    · subst k1; simpa using he1
    · by_cases k2 : k = i + 1
      · subst k2; simpa using he2
      · by_cases k3 : k + 1 = i
        · simp only [if_neg k1, if_neg k2, if_pos k3]; exact he0 k k3
        · simp only [if_neg k1, if_neg k2, if_neg k3, he k k1 k2 k3, sub_self, abs_zero]; exact hε
  have dF0 : ∀ k, k ≠ i → k ≠ i + 1 → k + 1 ≠ i → e' k - F k = 0 := by
    intro k k1 k2 k3
    rw [hF]
    simp only [if_neg k1, if_neg k2, if_neg k3, he k k1 k2 k3, sub_self]
  refine frob_le_block (i := i) hε ?_ ?_
  · intro r k
    simp only [Matrix.sub_apply, triB, Matrix.of_apply, triF]
    split_ifs
    · exact dD _
    · exact dF _
    · exact dF _
    · exact hy'
    · simpa using hε
  · intro r k hrk
    simp only [Matrix.sub_apply, triB, Matrix.of_apply, triF]
    split_ifs
    · exact dD0 _ (by omega) (by omega)
    · exact dF0 _ (by omega) (by omega) (by omega)
    · exact dF0 _ (by omega) (by omega) (by omega)
    · omega
    · simp

/-! ## The state of the loop -/

/-- The real numbers in a vector of floats. -/
def dv (a : Arr1 (Rnd R)) : Nat → ℝ := fun k => (a.get k).v

/-- The off-diagonal entries still in play. -/
def effV (off : Arr1 (Rnd R)) (k : Nat) : Nat → ℝ := fun m => if m < k then (off.get m).v else 0

theorem effV_succ (off : Arr1 (Rnd R)) (k : Nat) : effV off k = zeroAt (effV off (k + 1)) k := by
  funext m
  unfold zeroAt effV
  split_ifs <;> first | rfl | omega

/-- The errors of the scalar operations of one rotation. -/
theorem rot_scalars {c s c' s' β : ℝ} (hu : 10 * R.uw < 1) (h1 : c * c + s * s = 1)
    (hc : Rel R 2 c' c) (hs : Rel R 2 s' s) {a b o two : ℝ} (ha : |a| ≤ β) (hb : |b| ≤ β) (ho : |o| ≤ β)
    (htwo : Rel R 1 two 2) :
    |R.rnd (R.rnd (R.rnd (R.rnd (c' * c') * a) + R.rnd (R.rnd (s' * s') * b)) -
        R.rnd (R.rnd (R.rnd (c' * s') * o) * two)) - (c * c * a + s * s * b - 2 * (c * s * o))| ≤
      2 * gam R.uw 10 * β ∧
    |R.rnd (R.rnd (R.rnd (R.rnd (s' * s') * a) + R.rnd (R.rnd (c' * c') * b)) +
        R.rnd (R.rnd (R.rnd (c' * s') * o) * two)) - (s * s * a + c * c * b + 2 * (c * s * o))| ≤
      2 * gam R.uw 10 * β ∧
    |R.rnd (R.rnd (R.rnd (c' * s') * R.rnd (a - b)) + R.rnd (o * R.rnd (R.rnd (c' * c') - R.rnd (s' * s')))) -
        (c * s * (a - b) + o * (c * c - s * s))| ≤ 2 * gam R.uw 10 * β ∧
    |R.rnd (o * c') - o * c| ≤ 2 * gam R.uw 10 * β ∧ |R.rnd (-s' * o) - -s * o| ≤ 2 * gam R.uw 10 * β := by
  have hg := gam_nonneg (n := 10) R.uw_nonneg (by exact_mod_cast hu)
  have hβ : 0 ≤ β := (abs_nonneg a).trans ha
  have cc : Rel R 5 (R.rnd (c' * c')) (c * c) := (hc.mul hc).trans (Rel.rnd _)
  have ss : Rel R 5 (R.rnd (s' * s')) (s * s) := (hs.mul hs).trans (Rel.rnd _)
  have cs : Rel R 5 (R.rnd (c' * s')) (c * s) := (hc.mul hs).trans (Rel.rnd _)
  have hcs : |c * s| ≤ 1 / 2 := by
    rw [abs_le]; constructor <;> nlinarith [sq_nonneg (c + s), sq_nonneg (c - s)]
  have hcc : |c * c| + |s * s| = 1 := by
    rw [abs_of_nonneg (mul_self_nonneg c), abs_of_nonneg (mul_self_nonneg s)]; exact h1
  have hc1 : |c| ≤ 1 := abs_le_one_iff_mul_self_le_one.2 (by nlinarith [mul_self_nonneg s])
  have hs1 : |s| ≤ 1 := abs_le_one_iff_mul_self_le_one.2 (by nlinarith [mul_self_nonneg c])
  have b1 : Rel R 8 (R.rnd (R.rnd (R.rnd (c' * s') * o) * two)) (c * s * o * 2) :=
    ((((cs.mul (Rel.refl 0 o)).trans (Rel.rnd _)).mul htwo).trans (Rel.rnd _)).mono (by norm_num)
  generalize hB : R.rnd (R.rnd (R.rnd (c' * s') * o) * two) = B at *
  have hdia : ∀ (p q P Q : ℝ), Rel R 5 P p → Rel R 5 Q q → |p| + |q| = 1 → ∀ σ : ℝ, |σ| = 1 →
      |R.rnd (R.rnd (R.rnd (P * a) + R.rnd (Q * b)) + σ * B) - (p * a + q * b + σ * (2 * (c * s * o)))| ≤
        2 * gam R.uw 10 * β := by
    intro p q P Q hP hQ hpq σ hσ
    obtain ⟨t1, ht1, e1⟩ := Rel.rnd (R := R) (R.rnd (P * a) + R.rnd (Q * b))
    obtain ⟨t2, ht2, e2⟩ := Rel.rnd (R := R) (R.rnd (R.rnd (P * a) + R.rnd (Q * b)) + σ * B)
    have r1 : Rel R 8 (R.rnd (P * a) * t1 * t2) (p * a) :=
      ((hP.mul (Rel.refl 0 a)).trans (Rel.rnd _) |>.trans ⟨t1, ht1, rfl⟩ |>.trans ⟨t2, ht2, rfl⟩).mono (by norm_num)
    have r2 : Rel R 8 (R.rnd (Q * b) * t1 * t2) (q * b) :=
      ((hQ.mul (Rel.refl 0 b)).trans (Rel.rnd _) |>.trans ⟨t1, ht1, rfl⟩ |>.trans ⟨t2, ht2, rfl⟩).mono (by norm_num)
    have r3 : Rel R 9 (B * t2) (c * s * o * 2) := b1.trans ⟨t2, ht2, rfl⟩
    have f1 := r1.err (by norm_num) hu
    have f2 := r2.err (by norm_num) hu
    have f3 := r3.err (by norm_num) hu
    rw [e2, e1]
    calc _ = |(R.rnd (P * a) * t1 * t2 - p * a) + (R.rnd (Q * b) * t1 * t2 - q * b) +
          σ * (B * t2 - c * s * o * 2)| := by congr 1; ring
      _ ≤ |R.rnd (P * a) * t1 * t2 - p * a| + |R.rnd (Q * b) * t1 * t2 - q * b| + |B * t2 - c * s * o * 2| := by
          refine (abs_add_le _ _).trans (add_le_add (abs_add_le _ _) ?_)
          rw [abs_mul, hσ, one_mul]
      _ ≤ gam R.uw 10 * (|p * a| + |q * b| + |c * s * o * 2|) := by linarith
      _ ≤ gam R.uw 10 * (2 * β) := by
          refine mul_le_mul_of_nonneg_left ?_ hg
          rw [abs_mul, abs_mul, abs_mul, abs_mul, abs_two]
          have g1 := mul_le_mul_of_nonneg_left ha (abs_nonneg p)
          have g2 := mul_le_mul_of_nonneg_left hb (abs_nonneg q)
          have g3 := mul_le_mul hcs ho (abs_nonneg o) (by norm_num)
          have g4 : |p| * β + |q| * β = β := by rw [← add_mul, hpq, one_mul]
          linarith
      _ = _ := by ring
  refine ⟨?_, ?_, ?_, ?_, ?_⟩
  · have := hdia _ _ _ _ cc ss hcc (-1) (by norm_num)
    simp only [neg_one_mul, ← sub_eq_add_neg] at this
    exact this
  · have := hdia _ _ _ _ ss cc (by linarith) 1 (by norm_num)
    simp only [one_mul] at this
    exact this
  · obtain ⟨t1, ht1, e1⟩ := Rel.rnd (R := R) (R.rnd (c' * c') - R.rnd (s' * s'))
    obtain ⟨t2, ht2, e2⟩ := Rel.rnd (R := R) (o * R.rnd (R.rnd (c' * c') - R.rnd (s' * s')))
    obtain ⟨t3, ht3, e3⟩ := Rel.rnd (R := R) (R.rnd (R.rnd (c' * s') * R.rnd (a - b)) +
      R.rnd (o * R.rnd (R.rnd (c' * c') - R.rnd (s' * s'))))
    have r1 : Rel R 8 (R.rnd (R.rnd (c' * s') * R.rnd (a - b)) * t3) (c * s * (a - b)) :=
      ((cs.mul (Rel.rnd _)).trans (Rel.rnd _)).trans ⟨t3, ht3, rfl⟩
    have r2 : Rel R 8 (o * R.rnd (c' * c') * t1 * t2 * t3) (o * (c * c)) :=
      ((Rel.refl 0 o).mul cc |>.trans ⟨t1, ht1, rfl⟩ |>.trans ⟨t2, ht2, rfl⟩ |>.trans ⟨t3, ht3, rfl⟩).mono (by norm_num)
    have r3 : Rel R 8 (o * R.rnd (s' * s') * t1 * t2 * t3) (o * (s * s)) :=
      ((Rel.refl 0 o).mul ss |>.trans ⟨t1, ht1, rfl⟩ |>.trans ⟨t2, ht2, rfl⟩ |>.trans ⟨t3, ht3, rfl⟩).mono (by norm_num)
    have f1 := r1.err (by norm_num) hu
    have f2 := r2.err (by norm_num) hu
    have f3 := r3.err (by norm_num) hu
    rw [e3, e2, e1]
    calc _ = |(R.rnd (R.rnd (c' * s') * R.rnd (a - b)) * t3 - c * s * (a - b)) +
          (o * R.rnd (c' * c') * t1 * t2 * t3 - o * (c * c)) - (o * R.rnd (s' * s') * t1 * t2 * t3 - o * (s * s))| := by
          congr 1; ring
      _ ≤ gam R.uw 10 * (|c * s * (a - b)| + |o * (c * c)| + |o * (s * s)|) := by
          refine (abs_sub _ _).trans ?_
          have := abs_add_le (R.rnd (R.rnd (c' * s') * R.rnd (a - b)) * t3 - c * s * (a - b))
            (o * R.rnd (c' * c') * t1 * t2 * t3 - o * (c * c))
          linarith
      _ ≤ gam R.uw 10 * (2 * β) := by
          refine mul_le_mul_of_nonneg_left ?_ hg
          rw [abs_mul _ (a - b), abs_mul o, abs_mul o]
          have g0 : |a - b| ≤ 2 * β := (abs_sub _ _).trans (by linarith)
          have g1 := mul_le_mul hcs g0 (abs_nonneg _) (by norm_num)
          nlinarith [abs_nonneg (c * c), abs_nonneg (s * s)]
      _ = _ := by ring
  · have r : Rel R 3 (R.rnd (o * c')) (o * c) := ((Rel.refl 0 o).mul hc).trans (Rel.rnd _) |>.mono (by norm_num)
    refine (r.err (by norm_num) hu).trans ?_
    rw [abs_mul]
    have := mul_le_mul ho hc1 (abs_nonneg _) hβ
    nlinarith
  · have r : Rel R 3 (R.rnd (-s' * o)) (-s * o) := (hs.neg.mul (Rel.refl 0 o)).trans (Rel.rnd _) |>.mono (by norm_num)
    refine (r.err (by norm_num) hu).trans ?_
    rw [abs_mul, abs_neg]
    have := mul_le_mul hs1 ho (abs_nonneg _) zero_le_one
    nlinarith

/-! ## The sweep -/

/-- Effect of the sweep so far. -/
structure SweepR (n start e : Nat) (A O : Matrix (Fin n) (Fin n) ℝ) (G H : ℝ) (i : Nat) (yb : ℝ)
    (st : SweepState (Rnd R)) : Prop where
  sim : SimQ n A (triB n (dv st.diag) (effV st.off e) i yb) O st.q G H
  start0 : start ≠ 0 → (st.off.get (start - 1)).v = 0

theorem sweep_rnd {n start e : Nat} {A O : Matrix (Fin n) (Fin n) ℝ} {G H : ℝ} {s : SweepState (Rnd R)}
    (hu : 10 * R.uw < 1) (hse : start < e) (hen : e < n)
    (hs : SweepShape n s) (hO : Oᵀ * O = 1) (hT : SimQ n A (tridiag n (dv s.diag) (effV s.off e)) O s.q G H)
    (hG : 0 ≤ G) (hH : 0 ≤ H) (h0 : start ≠ 0 → (s.off.get (start - 1)).v = 0) :
    Succeeds (loopBrk (List.range' start (e - start)) s (sweepStep start e))
      (fun st => SweepShape n st ∧ SweepR n start e A O (G * (1 + rotErr R) ^ (e - start))
        (H * (1 + rotErr R) ^ (e - start)) e 0 st) := by
  have hr := rotErr_nonneg hu
  have hg := gam_nonneg (n := 10) R.uw_nonneg (by exact_mod_cast hu)
  refine wp_sweep hen hse.le hs (fun i st =>
    SweepR n start e A O (G * (1 + rotErr R) ^ (i - start)) (H * (1 + rotErr R) ^ (i - start)) i
      (if start < i ∧ i < e then st.y.v else 0) st ∧
    (start < i → i < e → st.x = st.off.get (i - 1))) _ ⟨⟨?_, h0⟩, ?_⟩ ?_ ?_ ?_
  · rw [if_neg (by omega), triB_zero, Nat.sub_self, pow_zero, mul_one, mul_one]; exact hT
  · intro h; omega
  · rintro i st rot norm h1 h2 hst ⟨⟨hsim, hz0⟩, hx⟩ hc
    obtain ⟨c, s', ρ, hrot⟩ := cancelY_rnd hc
    have hpow : (1 + rotErr R) ^ (i + 1 - start) = (1 + rotErr R) ^ (i - start) * (1 + rotErr R) := by
      rw [show i + 1 - start = i - start + 1 by omega, pow_succ]
    have hoffi : (if start < i then st.off.upd (i - 1) norm else st.off).get i = st.off.get i := by
      split_ifs
      · rw [Arr1.upd_get, if_neg (by omega)]
      · rfl
    have hoffi1 : (if start < i then st.off.upd (i - 1) norm else st.off).get (i + 1) = st.off.get (i + 1) := by
      split_ifs
      · rw [Arr1.upd_get, if_neg (by omega)]
      · rfl
    refine ⟨⟨?_, ?_⟩, ?_⟩
    · rw [hpow]
      obtain ⟨X, hX⟩ : ∃ X, X = triB n (dv st.diag) (effV st.off e) i (if start < i ∧ i < e then st.y.v else 0) :=
        ⟨_, rfl⟩
      obtain ⟨β, hβe⟩ : ∃ β, β = frob X := ⟨_, rfl⟩
      have hβ : 0 ≤ β := by rw [hβe]; exact frob_nonneg X
      have ent : ∀ r k : Nat, r < n → k < n →
          |triF (dv st.diag) (effV st.off e) i (if start < i ∧ i < e then st.y.v else 0) r k| ≤ β := by
        intro r k hr hk
        have := abs_le_frob X ⟨r, hr⟩ ⟨k, hk⟩
        rw [← hβe, hX] at this
        exact this
      have ha : |(st.diag.get i).v| ≤ β := by
        have := ent i i (by omega) (by omega)
        simpa [triF, dv] using this
      have hb : |(st.diag.get (i + 1)).v| ≤ β := by
        have := ent (i + 1) (i + 1) (by omega) (by omega)
        simpa [triF, dv] using this
      have ho : |(st.off.get i).v| ≤ β := by
        have := ent (i + 1) i (by omega) (by omega)
        simpa [triF, effV, h2] using this
      have ho1 : i + 1 < e → |(st.off.get (i + 1)).v| ≤ β := by
        intro h3
        have := ent (i + 2) (i + 1) (by omega) (by omega)
        simpa [triF, effV, h3] using this
      have hxx : start < i → |st.x.v| ≤ β ∧ |st.y.v| ≤ β := by
        intro h3
        have t1 := ent i (i - 1) (by omega) (by omega)
        have t2 := ent (i + 1) (i - 1) (by omega) (by omega)
        rw [triF, if_neg (by omega), if_pos (by omega), effV, if_pos (by omega), ← hx h3 h2] at t1
        rw [triF, if_neg (by omega), if_neg (by omega), if_neg (by omega), if_pos (by omega), if_pos ⟨h3, h2⟩] at t2
        exact ⟨t1, t2⟩
      have htwo : Rel R 1 (NdFloat.ofRat 2 : Rnd R).v 2 := by
        have := Rel.rnd (R := R) ((2 : ℚ) : ℝ)
        rw [show ((2 : ℚ) : ℝ) = 2 by norm_num] at this
        exact this
      obtain ⟨s1, s2, s3, -, -⟩ := rot_scalars hu hrot.one hrot.hc hrot.hs ha hb ho htwo
      rw [show G * ((1 + rotErr R) ^ (i - start) * (1 + rotErr R)) = (1 + rotErr R) * (G * (1 + rotErr R) ^ (i - start)) by
        ring, show H * ((1 + rotErr R) ^ (i - start) * (1 + rotErr R)) =
        (1 + rotErr R) * (H * (1 + rotErr R) ^ (i - start)) by ring]
      refine hsim.step hO (rotM_orth (i := i) (j := i + 1) (by omega) (by omega) (by omega) hrot.one) hr hr ?_
        (rot_opt hst.q (by omega) hu (g := rot.inverse) hrot.one hrot.hc hrot.hs.neg)
      rw [← hX, ← hβe]
      have hε : 0 ≤ 2 * gam R.uw 10 * β := by positivity
      rw [show rotErr R * β = 4 * (2 * gam R.uw 10 * β) by rw [rotErr]; ring, hX]
      refine sweep_near (by omega) hε ?_ ?_ ?_ ?_ ?_ ?_ ?_ ?_ ?_
      · intro k k1 k2
        simp only [dv, sweepNext, Arr1.upd_get, if_neg k1, if_neg k2]
      · simpa only [dv, effV, if_pos h2, sweepNext, Arr1.upd_get, if_neg (show ¬ i = i + 1 by omega), if_true,
          hoffi, Rnd.add_v, Rnd.sub_v, Rnd.mul_v] using s1
      · simpa only [dv, effV, if_pos h2, sweepNext, Arr1.upd_get, if_true, hoffi, Rnd.add_v, Rnd.sub_v, Rnd.mul_v] using s2
      · intro k k1 k2 k3
        simp only [sweepNext, effV]
        split_ifs <;> simp only [Arr1.upd_get] <;> split_ifs <;> first | rfl | omega
      · intro k k1
        simp only [effV]
        rw [if_pos (by omega), if_pos (by omega)]
        by_cases hsi : start < i
        · rw [if_pos ⟨hsi, h2⟩]
          have hxk := hx hsi h2
          rw [show i - 1 = k by omega] at hxk
          rw [← hxk, hrot.rx]
          have hnew : (sweepNext start e i st rot norm).off.get k = norm := by
            simp only [sweepNext, if_pos hsi]
            split_ifs <;> simp only [Arr1.upd_get] <;> split_ifs <;> first | rfl | omega
          rw [hnew]
          refine (hrot.hr.err (by norm_num) hu).trans ?_
          rw [abs_of_pos hrot.pos]
          have hρ : ρ ≤ 2 * β := by
            obtain ⟨q1, q2⟩ := hxx hsi
            have := abs_le_of_sq_le_sq' (a := ρ) (b := 2 * β) (by
              nlinarith [hrot.sq, sq_abs st.x.v, sq_abs st.y.v, abs_nonneg st.x.v, abs_nonneg st.y.v]) (by positivity)
            exact this.2
          nlinarith
        · rw [if_neg (by omega)]
          have hz : (st.off.get k).v = 0 := by
            rw [show k = start - 1 by omega]; exact hz0 (by omega)
          have hnew : (sweepNext start e i st rot norm).off.get k = st.off.get k := by
            simp only [sweepNext, if_neg hsi]
            split_ifs <;> simp only [Arr1.upd_get] <;> split_ifs <;> first | rfl | omega
          rw [hnew, hz]
          simpa using hε
      · intro k k1
        simp only [effV]
        rw [if_pos (by omega)]
        by_cases hsi : start < i
        · rw [if_pos ⟨hsi, h2⟩]
          have hxk := hx hsi h2
          rw [show i - 1 = k by omega] at hxk
          rw [← hxk, hrot.ry]
        · rw [if_neg (by omega)]
          have hz : (st.off.get k).v = 0 := by
            rw [show k = start - 1 by omega]; exact hz0 (by omega)
          rw [hz]; ring
      · have hnew : (sweepNext start e i st rot norm).off.get i = rot.c * rot.s * (st.diag.get i - st.diag.get (i + 1)) +
            st.off.get i * (rot.c * rot.c - rot.s * rot.s) := by
          simp only [sweepNext, hoffi]
          split_ifs <;> simp only [Arr1.upd_get] <;> split_ifs <;> first | rfl | omega
        simp only [effV, if_pos h2, hnew]
        simpa only [dv, Rnd.add_v, Rnd.sub_v, Rnd.mul_v] using s3
      · by_cases hie : i + 1 < e
        · obtain ⟨-, -, -, s4, -⟩ := rot_scalars hu hrot.one hrot.hc hrot.hs ha hb (ho1 hie) htwo
          have hnew : (sweepNext start e i st rot norm).off.get (i + 1) = st.off.get (i + 1) * rot.c := by
            simp only [sweepNext]
            rw [if_pos (by omega)]
            simp only [Arr1.upd_get, if_true, if_neg (show ¬ i + 1 = i by omega), hoffi1]
          simp only [effV, if_pos hie, hnew]
          exact s4
        · simp only [effV, if_neg hie, zero_mul, sub_zero, abs_zero]
          exact hε
      · by_cases hie : i + 1 < e
        · obtain ⟨-, -, -, -, s5⟩ := rot_scalars hu hrot.one hrot.hc hrot.hs ha hb (ho1 hie) htwo
          have hnew : (sweepNext start e i st rot norm).y = -rot.s * st.off.get (i + 1) := by
            simp only [sweepNext]
            rw [if_pos (by omega)]
            simp only [Arr1.upd_get, if_neg (show ¬ i + 1 = i by omega), hoffi1]
          rw [if_pos ⟨by omega, hie⟩, hnew]
          simp only [effV, if_pos hie]
          exact s5
        · rw [if_neg (by omega)]
          simp only [effV, if_neg hie, mul_zero, sub_zero, abs_zero]
          exact hε
    · intro hs0
      rw [← hz0 hs0]
      simp only [sweepNext]
      split_ifs <;> simp only [Arr1.upd_get] <;> split_ifs <;> first | rfl | omega
    · intro _ h4
      have hin : i ≠ e - 1 := by omega
      simp only [sweepNext, if_pos hin, Nat.add_sub_cancel, Arr1.upd_get]
      rw [if_neg (by omega : ¬ i = i + 1)]
  · rintro i st h1 h2 hst ⟨⟨hsim, hz0⟩, hx⟩ hc
    have hy := cancelY_rnd_none hc
    rw [hy, ite_self, triB_zero] at hsim
    have hle : (1 + rotErr R) ^ (i - start) ≤ (1 + rotErr R) ^ (e - start) :=
      pow_le_pow_right₀ (by linarith) (by omega)
    refine ⟨?_, hz0⟩
    rw [triB_zero]
    exact hsim.mono (mul_le_mul_of_nonneg_left hle hG) (mul_le_mul_of_nonneg_left hle hH)
  · rintro st hst ⟨⟨hsim, hz0⟩, hx⟩
    rw [if_neg (by omega)] at hsim
    exact ⟨hsim, hz0⟩

/-! ## Deflation -/

theorem rnd_le {x : ℝ} (hx : 0 ≤ x) : R.rnd x ≤ (1 + R.u) * x := by
  have := (abs_le.1 (R.rnd_err x)).2
  rw [abs_of_nonneg hx] at this
  linarith

theorem rnd_nonneg {x : ℝ} (hx : 0 ≤ x) : 0 ≤ R.rnd x := by
  have := (abs_le.1 (R.rnd_err x)).1
  rw [abs_of_nonneg hx] at this
  nlinarith [R.u_lt_one]

/-- The right-hand side of the deflation test. -/
theorem defl_le {eps a b : ℝ} (heps : 0 ≤ eps) :
    R.rnd (eps * R.rnd (|a| + |b|)) ≤ (1 + R.u) ^ 2 * eps * (|a| + |b|) := by
  have hu := R.u_nonneg
  have h1 : R.rnd (|a| + |b|) ≤ (1 + R.u) * (|a| + |b|) := rnd_le (by positivity)
  have h2 : 0 ≤ R.rnd (|a| + |b|) := rnd_nonneg (by positivity)
  calc R.rnd (eps * R.rnd (|a| + |b|)) ≤ (1 + R.u) * (eps * R.rnd (|a| + |b|)) := rnd_le (by positivity)
    _ ≤ (1 + R.u) * (eps * ((1 + R.u) * (|a| + |b|))) := by gcongr
    _ = _ := by ring

theorem frob_drop {n m : Nat} {d e : Nat → ℝ} {κ : ℝ} (hκ : 0 ≤ κ) (hm : m < n - 1)
    (hs : |e m| ≤ κ * (|d (m + 1)| + |d m|)) :
    frob (tridiag n d (zeroAt e m) - tridiag n d e) ≤ 2 * κ * frob (tridiag n d e) := by
  let a : Fin n := ⟨m, by omega⟩
  let b : Fin n := ⟨m + 1, by omega⟩
  have hab : a ≠ b := fun h => by have := Fin.mk.inj_iff.1 h; omega
  apply frob_le_of_sq (mul_nonneg (by linarith) (frob_nonneg _))
  rw [sum_sq_block _ a b hab]
  · have e1 : (tridiag n d (zeroAt e m) - tridiag n d e) a a = 0 := by simp [tridiag]
    have e2 : (tridiag n d (zeroAt e m) - tridiag n d e) b b = 0 := by simp [tridiag]
    have e3 : (tridiag n d (zeroAt e m) - tridiag n d e) a b = - e m := by
      simp only [Matrix.sub_apply, tridiag, Matrix.of_apply, zeroAt, a, b]
      split_ifs <;> first | omega | simp
    have e4 : (tridiag n d (zeroAt e m) - tridiag n d e) b a = - e m := by
      simp only [Matrix.sub_apply, tridiag, Matrix.of_apply, zeroAt, a, b]
      split_ifs <;> first | omega | simp
    rw [e1, e2, e3, e4]
    have h1 := diag_sq_le_frob (tridiag n d e) a b hab
    have h2 : tridiag n d e a a = d m := by simp [tridiag, a]
    have h3 : tridiag n d e b b = d (m + 1) := by simp [tridiag, b]
    rw [h2, h3] at h1
    have h5 : e m ^ 2 ≤ (κ * (|d (m + 1)| + |d m|)) ^ 2 := by
      rw [← sq_abs (e m)]
      exact pow_le_pow_left₀ (abs_nonneg _) hs 2
    have h6 : (|d (m + 1)| + |d m|) ^ 2 ≤ 2 * (d m ^ 2 + d (m + 1) ^ 2) := by
      nlinarith [sq_nonneg (|d (m + 1)| - |d m|), sq_abs (d m), sq_abs (d (m + 1))]
    have h7 : κ ^ 2 * (|d (m + 1)| + |d m|) ^ 2 ≤ κ ^ 2 * (2 * frob (tridiag n d e) ^ 2) :=
      mul_le_mul_of_nonneg_left (by linarith) (sq_nonneg _)
    nlinarith
  · intro i j hij
    simp only [tridiag, Matrix.sub_apply, Matrix.of_apply, zeroAt]
    have h1 : (i : Nat) ≠ m ∧ (i : Nat) ≠ m + 1 ∨ (j : Nat) ≠ m ∧ (j : Nat) ≠ m + 1 := by
      rcases hij with ⟨h1, h2⟩ | ⟨h1, h2⟩
      · exact Or.inl ⟨fun h => h1 (Fin.ext h), fun h => h2 (Fin.ext h)⟩
      · exact Or.inr ⟨fun h => h1 (Fin.ext h), fun h => h2 (Fin.ext h)⟩
    split_ifs <;> first | omega | simp

theorem SimQ.drop {n m : Nat} {A O : Matrix (Fin n) (Fin n) ℝ} {q : Option (Arr2 (Rnd R))} {d e : Nat → ℝ} {G H : ℝ}
    (h : SimQ n A (tridiag n d e) O q G H) (heps : 0 ≤ R.eps) (hm : m < n - 1)
    (hs : |e m| ≤ (1 + R.u) ^ 2 * R.eps * (|d (m + 1)| + |d m|)) :
    SimQ n A (tridiag n d (zeroAt e m)) O q (G * (1 + deflErr R)) H := by
  rw [mul_comm G]
  refine h.perturb (deflErr_nonneg heps) ?_
  rw [show deflErr R = 2 * ((1 + R.u) ^ 2 * R.eps) by rw [deflErr]; ring]
  have hu := R.u_nonneg
  exact frob_drop (by positivity) hm hs

theorem not_bigOff_rnd {diag off : Arr1 (Rnd R)} {eps : Rnd R} (heps : 0 ≤ eps.v) {m : Nat}
    (h : bigOff diag off eps m = false) :
    |(off.get m).v| ≤ (1 + R.u) ^ 2 * eps.v * (|(diag.get (m + 1)).v| + |(diag.get m).v|) := by
  simp only [bigOff, Rnd.lt_v, Rnd.mul_v, Rnd.add_v, Rnd.abs_v, decide_eq_false_iff_not, not_lt] at h
  exact h.trans (defl_le heps)

theorem bigOff_rnd {diag off : Arr1 (Rnd R)} {eps : Rnd R} (heps : 0 ≤ eps.v) {m : Nat}
    (h : bigOff diag off eps m = true) : (off.get m).v ≠ 0 := by
  simp only [bigOff, Rnd.lt_v, Rnd.mul_v, Rnd.add_v, Rnd.abs_v, decide_eq_true_eq] at h
  intro h0
  rw [h0, abs_zero] at h
  have : 0 ≤ R.rnd (eps.v * R.rnd (|(diag.get (m + 1)).v| + |(diag.get m).v|)) :=
    rnd_nonneg (mul_nonneg heps (rnd_nonneg (by positivity)))
  linarith

theorem smallOff_rnd {diag off : Arr1 (Rnd R)} {eps : Rnd R} (heps : 0 ≤ eps.v) {m : Nat}
    (h : smallOff diag off eps m = true) :
    |(off.get m).v| ≤ (1 + R.u) ^ 2 * eps.v * (|(diag.get (m + 1)).v| + |(diag.get m).v|) := by
  simp only [smallOff, Rnd.isZero_v, Rnd.le_v, Rnd.mul_v, Rnd.add_v, Rnd.abs_v, Bool.or_eq_true, decide_eq_true_eq] at h
  have hu := R.u_nonneg
  rcases h with h | h
  · rw [h, abs_zero]; positivity
  · exact h.trans (defl_le heps)

/-- `delimit_subproblem`. -/
theorem SimQ.delim {n k : Nat} {A O : Matrix (Fin n) (Fin n) ℝ} {q : Option (Arr2 (Rnd R))} {eps : Rnd R}
    {diag off off' : Arr1 (Rnd R)} {G H : ℝ} {s e : Nat} (h : SimQ n A (tridiag n (dv diag) (effV off k)) O q G H) (hG : 0 ≤ G) (heps : 0 ≤ R.eps)
    (he : eps.v = R.eps) (hk : k ≤ n - 1) (ds : DelimSpec diag off eps k off' s e) :
    SimQ n A (tridiag n (dv diag) (effV off' e)) O q (G * (1 + deflErr R) ^ k) H := by
  have he0 : 0 ≤ eps.v := by rw [he]; exact heps
  have hd0 := deflErr_nonneg heps
  have h1 : ∀ j, e ≤ j → j ≤ k → SimQ n A (tridiag n (dv diag) (effV off j)) O q (G * (1 + deflErr R) ^ (k - j)) H := by
    intro j hj hjk
    induction hjk using Nat.decreasingInduction with
    | self => rw [Nat.sub_self, pow_zero, mul_one]; exact h
    | of_succ j hj' ih =>
      rw [effV_succ, show k - j = k - (j + 1) + 1 by omega, pow_succ, ← mul_assoc]
      refine (ih (by omega)).drop heps (by omega) ?_
      rw [effV, if_pos (by omega)]
      have := not_bigOff_rnd he0 (ds.dropped j hj (by omega))
      rwa [he] at this
  have h2 := h1 e le_rfl ds.le
  have hle := ds.le
  by_cases hs : s = 0
  · have : off' = off := by rw [ds.off_eq, if_pos hs]
    rw [this]
    exact h2.mono (mul_le_mul_of_nonneg_left (pow_le_pow_right₀ (by linarith) (by omega)) hG) le_rfl
  · have hlt : s < e := by
      by_cases he : e = 0
      · exact absurd (ds.zero he) hs
      · exact ds.lt he
    have e1 : effV off' e = zeroAt (effV off e) (s - 1) := by
      funext m
      unfold zeroAt effV
      rw [ds.get]
      split_ifs <;> first | rfl | omega
    rw [e1]
    have h3 := h2.drop (m := s - 1) heps (by omega) (by
      rw [effV, if_pos (by omega)]
      have := smallOff_rnd he0 (ds.small hs)
      rwa [he] at this)
    refine h3.mono ?_ le_rfl
    rw [mul_assoc, ← pow_succ]
    exact mul_le_mul_of_nonneg_left (pow_le_pow_right₀ (by linarith) (by omega)) hG

/-! ## The `2 × 2` block -/

/-- The rotation that diagonalizes a `2 × 2` block. -/
theorem two_matrix {n s : Nat} (hs : s + 1 < n) {d e : Nat → ℝ} (ho : e s ≠ 0) (h0 : ∀ k, k + 1 = s → e k = 0)
    (h1 : e (s + 1) = 0) {l0 l1 : ℝ} (c1 : l0 + l1 = d s + d (s + 1))
    (c2 : (l0 - d s) * (l0 - d (s + 1)) = e s * e s) : ∃ W : Matrix (Fin n) (Fin n) ℝ, Wᵀ * W = 1 ∧
      W * tridiag n d e * Wᵀ =
        tridiag n (fun k => if k = s then l0 else if k = s + 1 then l1 else d k) (zeroAt e s) := by
  have hrp : 0 < (l0 - d (s + 1)) * (l0 - d (s + 1)) + e s * e s := by
    have := mul_self_pos.2 ho
    nlinarith [mul_self_nonneg (l0 - d (s + 1))]
  obtain ⟨r, hr⟩ : ∃ r, r = Real.sqrt ((l0 - d (s + 1)) * (l0 - d (s + 1)) + e s * e s) := ⟨_, rfl⟩
  have hr0 : 0 < r := by rw [hr]; exact Real.sqrt_pos.2 hrp
  have hrr : r * r = (l0 - d (s + 1)) * (l0 - d (s + 1)) + e s * e s := by rw [hr]; exact Real.mul_self_sqrt hrp.le
  have hne := hr0.ne'
  have hcs : (l0 - d (s + 1)) / r * ((l0 - d (s + 1)) / r) + -(e s / r) * -(e s / r) = 1 := by
    field_simp
    linear_combination -hrr
  refine ⟨rotM n s (s + 1) ((l0 - d (s + 1)) / r) (-(e s / r)),
    rotM_orth (by omega) (by omega) (by omega) hcs, ?_⟩
  rw [← triB_zero n d _ s, ← triB_zero n _ (zeroAt e s) (s + 1)]
  have hl1 : l1 = d s + d (s + 1) - l0 := by linear_combination c1
  apply sweep_matrix hs
  · intro k k1 k2
    simp only [if_neg k1, if_neg k2]
  · simp only [if_true]
    field_simp
    rw [sq, hrr]
    linear_combination (l0 - d (s + 1)) * c2
  · simp only [if_true, if_neg (show ¬ s + 1 = s by omega)]
    rw [hl1]
    field_simp
    rw [sq, hrr]
    linear_combination (-(l0 - d (s + 1))) * c2
  · intro k k1 k2 k3
    rw [zeroAt, if_neg k1]
  · intro k k1
    rw [zeroAt, if_neg (by omega), h0 k k1]; ring
  · intro k k1
    rw [h0 k k1]; ring
  · rw [zeroAt, if_pos rfl]
    field_simp
    linear_combination (-(e s)) * c2
  · rw [zeroAt, if_neg (by omega), h1]; ring
  · rw [h1]; ring

/-- The eigenvalues of a `2 × 2` block. -/
theorem compute2x2_rnd (hu : 10 * R.uw < 1) (a o b : Rnd R) : ∃ l0 l1 : Rnd R, ∃ L0 L1 : ℝ,
    compute2x2Eigvals a o o b = some (l0, l1) ∧ L0 + L1 = a.v + b.v ∧ (L0 - a.v) * (L0 - b.v) = o.v * o.v ∧
    a.v ≤ L0 ∧ b.v ≤ L0 ∧ ∀ β, |a.v| ≤ β → |b.v| ≤ β → |o.v| ≤ β →
      |l0.v - L0| ≤ 4 * gam R.uw 10 * β ∧ |l1.v - L1| ≤ 4 * gam R.uw 10 * β := by
  have hg := gam_nonneg (n := 10) R.uw_nonneg (by exact_mod_cast hu)
  have half : Rel R 1 (NdFloat.ofRat (1 / 2) : Rnd R).v (1 / 2) := by
    show Rel R 1 (R.rnd ((1 / 2 : ℚ) : ℝ)) (1 / 2)
    rw [show ((1 / 2 : ℚ) : ℝ) = 1 / 2 by norm_num]
    exact Rel.rnd _
  generalize hh : (NdFloat.ofRat (1 / 2) : Rnd R) = h at *
  have hv : Rel R 3 (R.rnd (R.rnd (a.v - b.v) * h.v)) ((a.v - b.v) * (1 / 2)) :=
    ((Rel.rnd _).mul half).trans (Rel.rnd _)
  have ht : Rel R 3 (R.rnd (R.rnd (a.v + b.v) * h.v)) ((a.v + b.v) * (1 / 2)) :=
    ((Rel.rnd _).mul half).trans (Rel.rnd _)
  obtain ⟨p, hp⟩ : ∃ p, p = (a.v - b.v) * (1 / 2) := ⟨_, rfl⟩
  obtain ⟨q, hq⟩ : ∃ q, q = (a.v + b.v) * (1 / 2) := ⟨_, rfl⟩
  rw [← hp] at hv
  rw [← hq] at ht
  have hd0 : 0 ≤ o.v * o.v + p * p := add_nonneg (mul_self_nonneg _) (mul_self_nonneg _)
  have hd : Rel R 8 (R.rnd (R.rnd (o.v * o.v) + R.rnd (R.rnd (R.rnd (a.v - b.v) * h.v) * R.rnd (R.rnd (a.v - b.v) * h.v))))
      (o.v * o.v + p * p) :=
    (((Rel.rnd _).mono (by norm_num)).add_nonneg ((hv.mul hv).trans (Rel.rnd _)) (mul_self_nonneg _)
      (mul_self_nonneg _)).trans (Rel.rnd _)
  have hsq := (hd.sqrt hd0).trans (Rel.rnd _)
  obtain ⟨S, hS⟩ : ∃ S, S = Real.sqrt (o.v * o.v + p * p) := ⟨_, rfl⟩
  have hS0 : 0 ≤ S := by rw [hS]; exact Real.sqrt_nonneg _
  have hSS : S * S = o.v * o.v + p * p := by rw [hS]; exact Real.mul_self_sqrt hd0
  rw [← hS] at hsq
  refine ⟨(a + b) * h + NdFloat.sqrt (o * o + (a - b) * h * ((a - b) * h)),
    (a + b) * h - NdFloat.sqrt (o * o + (a - b) * h * ((a - b) * h)), q + S, q - S, ?_, by rw [hq]; ring, ?_, ?_, ?_, ?_⟩
  · unfold compute2x2Eigvals
    simp only [hh]
    rw [if_pos]
    simp only [Rnd.le_v, Rnd.zero_v, Rnd.add_v, Rnd.mul_v, Rnd.sub_v, decide_eq_true_eq]
    exact hd.nonneg hd0
  · have e1 : q - a.v = -p := by rw [hq, hp]; ring
    have e2 : q - b.v = p := by rw [hq, hp]; ring
    linear_combination hSS + (q - b.v + S) * e1 + (-p + S) * e2
  · have e1 : q - a.v = -p := by rw [hq, hp]; ring
    have := abs_le_of_sq_le_sq' (a := p) (b := S) (by nlinarith [mul_self_nonneg o.v]) hS0
    linarith [this.2]
  · have e2 : q - b.v = p := by rw [hq, hp]; ring
    have := abs_le_of_sq_le_sq' (a := p) (b := S) (by nlinarith [mul_self_nonneg o.v]) hS0
    linarith [this.1]
  · intro β ha hb ho
    have hβ : 0 ≤ β := (abs_nonneg _).trans ha
    have hqb : |q| ≤ β := by
      rw [hq, abs_le]; rw [abs_le] at ha hb; constructor <;> linarith [ha.1, ha.2, hb.1, hb.2]
    have hpb : |p| ≤ β := by
      rw [hp, abs_le]; rw [abs_le] at ha hb; constructor <;> linarith [ha.1, ha.2, hb.1, hb.2]
    have hSb : S ≤ 2 * β := (abs_le_of_sq_le_sq' (a := S) (b := 2 * β) (by
      nlinarith [sq_abs o.v, sq_abs p, abs_nonneg o.v, abs_nonneg p]) (by positivity)).2
    have key : ∀ σ z : ℝ, |σ| = 1 → Rel R 9 z S →
        |R.rnd (R.rnd (R.rnd (a.v + b.v) * h.v) + σ * z) - (q + σ * S)| ≤ 4 * gam R.uw 10 * β := by
      intro σ z hσ hz
      obtain ⟨t, ht1, e1⟩ := Rel.rnd (R := R) (R.rnd (R.rnd (a.v + b.v) * h.v) + σ * z)
      have f1 := (ht.trans ⟨t, ht1, rfl⟩).err (by norm_num) hu
      have f2 := (hz.trans ⟨t, ht1, rfl⟩).err (by norm_num) hu
      rw [abs_of_nonneg hS0] at f2
      rw [e1]
      calc _ = |(R.rnd (R.rnd (a.v + b.v) * h.v) * t - q) + σ * (z * t - S)| := by congr 1; ring
        _ ≤ |R.rnd (R.rnd (a.v + b.v) * h.v) * t - q| + |z * t - S| := by
            refine (abs_add_le _ _).trans (add_le_add le_rfl ?_)
            rw [abs_mul, hσ, one_mul]
        _ ≤ gam R.uw 10 * (|q| + S) := by linarith
        _ ≤ gam R.uw 10 * (4 * β) := mul_le_mul_of_nonneg_left (by linarith) hg
        _ = _ := by ring
    constructor
    · have := key 1 _ (by norm_num) hsq
      simp only [one_mul] at this
      exact this
    · have := key (-1) _ (by norm_num) hsq
      simp only [neg_one_mul, ← sub_eq_add_neg] at this
      exact this


end LinfaLinalg
