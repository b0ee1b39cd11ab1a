import Verif.Proofs.RoundedSvdBlock

/-! # Rounding errors of `svd`: the main loop and the whole function -/

set_option linter.unusedSimpArgs false
set_option linter.unusedSectionVars false

namespace LinfaLinalg

open Matrix

variable {R : StdModel}

/-- The main loop with a counter of the iterations. -/
theorem wp_svdLoop_count {α : Type} [Zero α] [One α] [Add α] [Sub α] [Mul α] [Div α] [Neg α] [NdFloat α]
    {cu cv up : Bool} {eps : α} {E : Fail → Prop} (fuel i : Nat) {st : SvdState α}
    (Inv : Nat → SvdState α → Prop) (h : Inv i st) (hf : E .fuel)
    (hstep : ∀ j st, Inv j st → st.end ≠ st.start → wp (svdStep up cu cv eps st) (Inv (j + 1)) E) :
    wp (svdLoop up cu cv eps fuel st) (fun st' => ∃ j, j ≤ i + fuel ∧ Inv j st' ∧ st'.end = st'.start) E := by
  induction fuel generalizing st i with
  | zero =>
    unfold svdLoop
    split_ifs with h0
    · exact ⟨i, le_rfl, h, h0⟩
    · exact hf
  | succ fuel ih =>
    unfold svdLoop
    split_ifs with h0
    · exact ⟨i, by omega, h, h0⟩
    · rw [wp_bind]
      refine wp_conseq (hstep i st h h0) fun st' h' => ?_
      refine wp_conseq (ih (i + 1) h') ?_
      rintro st'' ⟨j, hj, h1, h2⟩
      exact ⟨j, by omega, h1, h2⟩

section
variable {val : Prop} {p d : Nat} {A : Matrix (Fin p) (Fin d) ℝ} {up cu cv : Bool} {G H : ℝ} {s : SvdData (Rnd R)}

/-- The first `delimit_subproblem` and the main loop. -/
theorem svdIter_rnd (fuel : Nat) {eps : Rnd R} (e : SvdEnv R A G H) (he : EpsOk R eps) {K : Nat}
    (hK : 104 * ((K : ℝ) ^ 2 * gam R.uw 10) ≤ 1) {V : SvdState (Rnd R) → Prop}
    (hV0 : ∀ s' b t, svdDelimit up (d - 1) eps s = .ok (s', b, t) → V ⟨s', b, t⟩)
    (hV : ∀ st st', V st → st.end ≠ st.start → svdStep up cu cv eps st = .ok st' → V st')
    (hval : val → 2 ≤ d → (cu = false ∧ cv = false) ∨ (1 ≤ K ∧ ∀ st, V st → SvdBlockGood K st)) (hd : d ≠ 0)
    (h : SvdShape (rowsOf p d up) (colsOf p d up) d cu cv s)
    (hf : SvdQ val A up G H 0 (biD d (dv s.diag) (dv s.off)) s) :
    wp (do
      let (s, start, e) ← svdDelimit up (d - 1) eps s
      svdLoop up cu cv eps fuel ⟨s, start, e⟩)
      (fun st => SvdShape (rowsOf p d up) (colsOf p d up) d cu cv st.s ∧
        SvdQ val A up G H (svdOpsGood d K fuel) (diagonal fun i : Fin d => dv st.s.diag i) st.s) (fun f => f = .fuel) := by
  rw [wp_bind]
  have hd0 := wp_and (svdDelimit_rnd (n := d - 1) e he h hf (by omega) (fun k h1 h2 => by omega))
    (svdDelimit_shape (e := d - 1) (up := up) (eps := eps) (by omega) h)
  cases hx : svdDelimit up (d - 1) eps s with
  | error f => rw [hx] at hd0; exact hd0.elim
  | ok q =>
  rw [hx] at hd0
  obtain ⟨s1, start, en⟩ := q
  obtain ⟨⟨-, ok, good, -⟩, sh, hlt, hle⟩ := hd0
  have hv0 := hV0 _ _ _ hx
  simp only at ok good sh hlt hle
  rw [wp_ok]
  simp only
  refine wp_conseq (wp_svdLoop_count fuel 0 (fun j st => SvdSt (rowsOf p d up) (colsOf p d up) d cu cv st ∧
    SvdQ val A up G H ((2 * d ^ 2 + 3 * d + 210 * K ^ 2) * (j + 1)) (biD d (dv st.s.diag) (dv st.s.off)) st.s ∧
    SvdGoodF d st.s st.start st.end ∧ V st) ?_ rfl ?_) ?_
  · exact ⟨⟨sh, hlt, by simp only; omega⟩, ok.mono e (by
      rw [Nat.zero_add, Nat.zero_add, Nat.mul_one]; nlinarith), good, hv0⟩
  · rintro j st ⟨h1, h2, h3, h4⟩ hne
    have hs := svdStep_rnd e he hK (fun v hd2 => (hval v hd2).imp_right fun h => ⟨h.1, h.2 st h4⟩) h1 h2 h3 hne
    cases hx : svdStep up cu cv eps st with
    | error f => rw [hx] at hs; exact hs.elim
    | ok st' =>
      rw [hx] at hs
      obtain ⟨g1, g2, g3⟩ := hs
      exact ⟨g1, by rw [Nat.mul_succ]; exact g2, g3, hV _ _ h4 hne hx⟩
  · rintro st ⟨j, hj, ⟨h1, h2, h3, -⟩, hend⟩
    have hlt := h1.lt
    have hz : biD d (dv st.s.diag) (dv st.s.off) = diagonal fun i : Fin d => dv st.s.diag i := by
      ext r k
      simp only [biD, Matrix.of_apply, Matrix.diagonal_apply, Fin.ext_iff]
      split_ifs with q1 q2
      · rfl
      · exact h3.offz r (by omega) (by have := k.2; omega)
      · rfl
    rw [hz] at h2
    exact ⟨h1.shape, h2.mono e (Nat.mul_le_mul_left _ (by omega))⟩

end

/-- The last loop of `svd`: absolute values, and zero columns of `U` where the value was negative. -/
theorem fixSigns_rnd {r d : Nat} {cu : Bool} (diag : Arr1 (Rnd R)) (u : Option (Arr2 (Rnd R)))
    (hd : diag.len = d) (hu : ∀ a ∈ u, HasShape a r d) (hc : u.isSome = cu) :
    Succeeds (fixSigns d diag u) fun q => q.1.len = d ∧ (∀ a ∈ q.2, HasShape a r d) ∧ q.2.isSome = cu ∧
      (∀ k, k < d → (q.1.get k).v = |(diag.get k).v|) ∧
      ∀ U', q.2 = some U' → ∃ U, u = some U ∧ ∀ i k, k < d →
        (U'.get i k).v = if (diag.get k).v < 0 then 0 else (U.get i k).v := by
  have : Succeeds (fixSigns d diag u) fun q => q.1.len = d ∧
      ((∀ k, k < d → (q.1.get k).v = |(diag.get k).v|) ∧
      (∀ k, d ≤ k → q.1.get k = diag.get k) ∧
      ∀ U', q.2 = some U' → ∃ U, u = some U ∧ U'.nc = d ∧ ∀ i k,
        (U'.get i k).v = if k < d ∧ (diag.get k).v < 0 then 0 else (U.get i k).v) := by
    unfold fixSigns
    refine wp_conseq (wp_forRange (fun n (q : Arr1 (Rnd R) × Option (Arr2 (Rnd R))) => q.1.len = d ∧
      ((∀ k, k < n → (q.1.get k).v = |(diag.get k).v|) ∧
      (∀ k, n ≤ k → q.1.get k = diag.get k) ∧
      ∀ U', q.2 = some U' → ∃ U, u = some U ∧ U'.nc = d ∧ ∀ i k,
        (U'.get i k).v = if k < n ∧ (diag.get k).v < 0 then 0 else (U.get i k).v)) (by omega) ?_ ?_) (fun _ h => h)
    · refine ⟨hd, fun k hk => by omega, fun _ _ => rfl, fun U' hU' => ⟨U', hU', (hu U' hU').2, fun i k => ?_⟩⟩
      rw [if_neg (by omega)]
    · rintro n ⟨dg, w⟩ _ hn ⟨l, q1, q2, q3⟩
      simp only at l q1 q2 q3 ⊢
      rw [Arr1.idx_ok (by omega)]
      simp only [ok_bind]
      have hget := q2 n le_rfl
      split_ifs with hneg
      · have hlt : (diag.get n).v < 0 := by rw [← hget]; simpa [NdFloat.isSignNeg] using hneg
        rw [Arr1.idxSet_ok (by omega)]
        simp only [ok_bind]
        have hdg : ∀ k, ((dg.upd n (-dg.get n)).get k) = if k = n then -dg.get n else dg.get k := fun k => by
          simp [Arr1.upd]
        have e1 : ∀ k, k < n + 1 → ((dg.upd n (-dg.get n)).get k).v = |(diag.get k).v| := by
          intro k hk
          rw [hdg]
          split_ifs with hkn
          · rw [hkn, Rnd.neg_v, hget, abs_of_neg hlt]
          · exact q1 k (by omega)
        have e2 : ∀ k, n + 1 ≤ k → (dg.upd n (-dg.get n)).get k = diag.get k := by
          intro k hk
          rw [hdg, if_neg (by omega)]
          exact q2 k (by omega)
        cases w with
        | none => exact ⟨l, e1, e2, fun U' hU' => by simp at hU'⟩
        | some w =>
          obtain ⟨U, hU, hnc, hval⟩ := q3 w rfl
          unfold scaleCol
          simp only
          rw [if_pos (by omega)]
          refine ⟨l, e1, e2, fun U' hU' => ⟨U, hU, ?_⟩⟩
          simp only [Option.some.injEq] at hU'
          subst hU'
          refine ⟨hnc, fun i k => ?_⟩
          simp only
          by_cases hkn : k = n
          · rw [if_pos hkn, hkn, if_pos ⟨by omega, hlt⟩]
            simpa using R.rnd_err 0
          · rw [if_neg hkn, hval]
            congr 1
            simp only [eq_iff_iff, and_congr_left_iff]
            omega
      · have hlt : ¬ (diag.get n).v < 0 := by rw [← hget]; simpa [NdFloat.isSignNeg] using hneg
        refine ⟨l, ?_, fun k hk => q2 k (by omega), ?_⟩
        · intro k hk
          by_cases hkn : k = n
          · rw [hkn, hget, abs_of_nonneg (not_lt.1 hlt)]
          · exact q1 k (by omega)
        · intro U' hU'
          obtain ⟨U, hU, hnc, hval⟩ := q3 U' hU'
          refine ⟨U, hU, hnc, fun i k => ?_⟩
          rw [hval]
          by_cases hkn : k = n
          · rw [hkn, if_neg (by omega), if_neg (fun h => hlt h.2)]
          · congr 1
            simp only [eq_iff_iff, and_congr_left_iff]
            omega
  refine wp_conseq (wp_and (fixSigns_shape diag u hd hu hc) this) ?_
  rintro q ⟨⟨a1, a2, a3⟩, -, b1, -, b3⟩
  refine ⟨a1, a2, a3, b1, fun U' hU' => ?_⟩
  obtain ⟨U, h1, -, h2⟩ := b3 U' hU'
  exact ⟨U, h1, fun i k hk => by rw [h2]; simp [hk]⟩

/-- Scaling by the largest entry, for a rectangular matrix. -/
theorem scaleDownRect_rnd {m n : Nat} (a : Arr2 (Rnd R)) (ha : HasShape a m n) (hm : 1 ≤ m) (hn : 1 ≤ n) :
    ∃ B : Matrix (Fin m) (Fin n) ℝ, 0 ≤ a.amax.v ∧ toMat m n (Rnd.vals a) = a.amax.v • B ∧
      HasShape (a.scaleDown a.amax) m n ∧
      frob (toMat m n (Rnd.vals (a.scaleDown a.amax)) - B) ≤ R.u * frob B ∧
      (B = 0 ∨ 1 ≤ frob B) := by
  have hv : HasShape (Rnd.vals a) m n := ha
  have h0 := amax_nonneg (Rnd.vals a) (by rw [hv.1]; exact hm) (by rw [hv.2]; exact hn)
  rw [← amax_rnd] at h0
  unfold Arr2.scaleDown
  by_cases hz : a.amax.v = 0
  · rw [if_pos (by simpa using hz)]
    obtain ⟨-, s2, -, -⟩ := scaleDown_real (Rnd.vals a) hv hm hn
    have hA : toMat m n (Rnd.vals a) = 0 := by rw [s2, ← amax_rnd, hz, zero_smul]
    refine ⟨0, h0, by rw [hA, smul_zero], ha, ?_, Or.inl rfl⟩
    rw [hA]; simp
  · rw [if_neg (by simpa using hz)]
    refine ⟨Matrix.of fun i j => (a.get i j).v / a.amax.v, h0, ?_, ha, ?_, Or.inr ?_⟩
    · ext i j
      simp only [Matrix.smul_apply, Matrix.of_apply, smul_eq_mul, toMat_apply, Rnd.vals]
      field_simp
    · rw [show R.u * frob (Matrix.of fun (i : Fin m) (j : Fin n) => (a.get i j).v / a.amax.v) =
        frob (R.u • Matrix.of fun (i : Fin m) (j : Fin n) => (a.get i j).v / a.amax.v) by
          rw [frob_smul, abs_of_nonneg R.u_nonneg]]
      refine frob_mono fun i j => ?_
      simp only [Matrix.sub_apply, toMat_apply, Rnd.vals, Arr2.map, Matrix.of_apply, Rnd.div_v, Matrix.smul_apply,
        smul_eq_mul]
      rw [abs_mul, abs_of_nonneg R.u_nonneg]
      exact R.rnd_err _
    · obtain ⟨i, j, hi, hj, hij⟩ := (amax_real (Rnd.vals a) (by rw [hv.1]; exact hm) (by rw [hv.2]; exact hn)).2
      rw [hv.1] at hi
      rw [hv.2] at hj
      have := abs_le_frob (Matrix.of fun (i : Fin m) (j : Fin n) => (a.get i j).v / a.amax.v) ⟨i, hi⟩ ⟨j, hj⟩
      rw [← amax_rnd] at hij
      simp only [Matrix.of_apply, abs_div, abs_of_nonneg h0] at this
      simp only [Rnd.vals] at hij
      rwa [hij, div_self hz] at this

theorem epsOk_five (he : 0 ≤ R.eps) : EpsOk R (NdFloat.epsilon * NdFloat.ofRat 5) := by
  have hu := R.u_nonneg
  have h5 : (NdFloat.ofRat 5 : Rnd R).v = R.rnd 5 := by
    show R.rnd ((5 : ℚ) : ℝ) = R.rnd 5
    norm_num
  have h1 := abs_le.1 (R.rnd_err 5)
  have h50 : 0 ≤ R.rnd 5 := rnd_nonneg (by norm_num)
  have h2 := abs_le.1 (R.rnd_err (R.eps * R.rnd 5))
  have hp : 0 ≤ R.eps * R.rnd 5 := mul_nonneg he h50
  rw [abs_of_nonneg hp] at h2
  rw [abs_of_nonneg (by norm_num : (0 : ℝ) ≤ 5)] at h1
  have hv : (NdFloat.epsilon * NdFloat.ofRat 5 : Rnd R).v = R.rnd (R.eps * R.rnd 5) := by
    rw [Rnd.mul_v, h5]; rfl
  refine ⟨by rw [hv]; exact rnd_nonneg hp, ?_⟩
  rw [hv]
  calc R.rnd (R.eps * R.rnd 5) ≤ (1 + R.u) * (R.eps * R.rnd 5) := by linarith [h2.2]
    _ ≤ (1 + R.u) * (R.eps * (5 * (1 + R.u))) := by
        refine mul_le_mul_of_nonneg_left (mul_le_mul_of_nonneg_left ?_ he) (by linarith)
        linarith [h1.2]
    _ = _ := by ring

/-- `P diag(dg) Q` is within `(G - 1) ‖A‖_F` of `A` if `val` holds; the factors, if any, are within `(H - 1) √d` of `P`
and `Q`. -/
def SvdOut (val : Prop) {m n : Nat} (d : Nat) (A : Matrix (Fin m) (Fin n) ℝ) (dg : Nat → ℝ)
    (u vt : Option (Arr2 (Rnd R))) (G H : ℝ) : Prop :=
  ∃ (P : Matrix (Fin m) (Fin d) ℝ) (Q : Matrix (Fin d) (Fin n) ℝ), Pᵀ * P = 1 ∧ Q * Qᵀ = 1 ∧
    (val → frob (A - P * (diagonal fun i : Fin d => dg i) * Q) ≤ (G - 1) * frob A) ∧
    (∀ U, u = some U → frob (toMat m d (Rnd.vals U) - P) ≤ (H - 1) * Real.sqrt d) ∧
    ∀ V, vt = some V → frob (toMat d n (Rnd.vals V) - Q) ≤ (H - 1) * Real.sqrt d

theorem reflErrs_nonneg' {m k : Nat} (hu : ((5 * m + 31 : Nat) : ℝ) * R.u < 1) : 0 ≤ reflErrs R m k := by
  have h1 : (1 : ℝ) ≤ 1 + reflErr R m := by linarith [reflErr_nonneg hu]
  unfold reflErrs
  linarith [one_le_pow₀ (n := k) h1]

theorem frob_le_of_cols {m n : Nat} {E : Matrix (Fin m) (Fin n) ℝ} {δ : ℝ} (hδ : 0 ≤ δ)
    (h : ∀ j, colNorm E j ≤ δ) : frob E ≤ δ * Real.sqrt n := by
  rw [mul_comm]
  refine frob_le_of_sq (mul_nonneg (Real.sqrt_nonneg _) hδ) ?_
  rw [Finset.sum_comm, mul_pow, Real.sq_sqrt (Nat.cast_nonneg n)]
  calc _ = ∑ j, colNorm E j ^ 2 := Finset.sum_congr rfl fun j _ => (colNorm_sq _ j).symm
    _ ≤ ∑ _j : Fin n, δ ^ 2 := Finset.sum_le_sum fun j _ => pow_le_pow_left₀ (Real.sqrt_nonneg _) (h j) 2
    _ = n * δ ^ 2 := by simp

theorem start_bound {m n : Nat} {S B Δ : Matrix (Fin m) (Fin n) ℝ} {ρ : ℝ} (hρ : 0 ≤ ρ)
    (hB : frob (S - B) ≤ R.u * frob B) (hΔ : frob Δ ≤ ρ * frob S) :
    frob (B - (S + Δ)) ≤ ((1 + R.u) * (1 + ρ) - 1) * frob B := by
  have h1 : frob S ≤ (1 + R.u) * frob B := by
    have := frob_sub_le S B 0
    rw [sub_zero, sub_zero] at this
    linarith
  have h2 := frob_sub_le B S (S + Δ)
  rw [← frob_neg (B - S), neg_sub, sub_add_cancel_left, frob_neg] at h2
  nlinarith [mul_le_mul_of_nonneg_left h1 hρ]

/-- The iteration, in the orientation of the input. -/
theorem svdCore_rnd {m n d : Nat} (fuel : Nat) {S : Arr2 (Rnd R)} (hS : HasShape S m n) (hd : d = min m n) (hd0 : d ≠ 0)
    (hu : ((5 * max m n + 31 : Nat) : ℝ) * R.u < 1) (hw : 10 * R.w < 1) (he : 0 ≤ R.eps) {eps : Rnd R}
    (hE : EpsOk R eps) {cu cv : Bool} {val : Prop} {K : Nat} (hK : 104 * ((K : ℝ) ^ 2 * gam R.uw 10) ≤ 1)
    {V : SvdState (Rnd R) → Prop}
    {B : Matrix (Fin m) (Fin n) ℝ} (hB : frob (toMat m n (Rnd.vals S) - B) ≤ R.u * frob B) (hB1 : B = 0 ∨ 1 ≤ frob B)
    {b : BidiagonalDecomp (Rnd R)} {U Vt : Arr2 (Rnd R)} (e1 : bidiagonal S = .ok b) (e2 : b.generateU = .ok U)
    (e3 : b.generateVt = .ok Vt)
    (hsh : SvdShape m n d cu cv ⟨b.intoDiagonals.1, b.intoDiagonals.2, if cu then some U else none,
      if cv then some Vt else none⟩)
    (hV0 : ∀ s' x t, svdDelimit (decide (n ≤ m)) (d - 1) eps ⟨b.intoDiagonals.1, b.intoDiagonals.2,
      if cu then some U else none, if cv then some Vt else none⟩ = .ok (s', x, t) → V ⟨s', x, t⟩)
    (hV : ∀ st st', V st → st.end ≠ st.start → svdStep (decide (n ≤ m)) cu cv eps st = .ok st' → V st')
    (hval : val → 2 ≤ d → (cu = false ∧ cv = false) ∨ (1 ≤ K ∧ ∀ st, V st → SvdBlockGood K st)) :
    wp (do
      let (s, start, e) ← svdDelimit (decide (n ≤ m)) (d - 1) eps
        ⟨b.intoDiagonals.1, b.intoDiagonals.2, if cu then some U else none, if cv then some Vt else none⟩
      svdLoop (decide (n ≤ m)) cu cv eps fuel ⟨s, start, e⟩)
      (fun st => SvdShape m n d cu cv st.s ∧ SvdOut val d B (dv st.s.diag) st.s.u st.s.vt
        ((1 + R.u) * (1 + reflErrs R (max m n) (2 * d - 1)) * svdFac R (svdOpsGood d K fuel))
        ((1 + reflErrs R (max m n) d) * svdFac R (svdOpsGood d K fuel))) (fun f => f = .fuel) := by
  have hbd : ∃ b U Vt, bidiagonal S = .ok b ∧ b.generateU = .ok U ∧ b.generateVt = .ok Vt ∧
      b.upperDiag = decide (n ≤ m) ∧
      ∃ (P : Matrix (Fin m) (Fin d) ℝ) (Qt : Matrix (Fin d) (Fin n) ℝ)
        (Δ : Matrix (Fin m) (Fin n) ℝ), Pᵀ * P = 1 ∧ Qt * Qtᵀ = 1 ∧
        toMat m n (Rnd.vals S) + Δ = P * b.bMatV d * Qt ∧
        frob Δ ≤ reflErrs R (max m n) (2 * d - 1) * frob (toMat m n (Rnd.vals S)) ∧
        (∀ j, colNorm (toMat m d (Rnd.vals U) - P) j ≤ reflErrs R (max m n) d) ∧
        ∀ j, colNorm ((toMat d n (Rnd.vals Vt))ᵀ - Qtᵀ) j ≤ reflErrs R (max m n) d := by
    subst hd
    obtain ⟨b, U, Vt, a1, a2, a3, a4, -, -, -, -, a5⟩ := bidiagonal_rnd S hS hd0 hu
    exact ⟨b, U, Vt, a1, a2, a3, a4, a5⟩
  obtain ⟨b', U', Vt', f1, f2, f3, hup, P, Qt, Δ, oP, oQ, hSΔ, hΔ, hU, hVt⟩ := hbd
  rw [e1, Except.ok.injEq] at f1
  subst f1
  rw [e2, Except.ok.injEq] at f2
  subst f2
  rw [e3, Except.ok.injEq] at f3
  subst f3
  have hρ : 0 ≤ reflErrs R (max m n) (2 * d - 1) := reflErrs_nonneg' hu
  have hη : 0 ≤ reflErrs R (max m n) d := reflErrs_nonneg' hu
  have hu0 := R.u_nonneg
  have h31 : 31 * R.u < 1 := lt_of_le_of_lt (mul_le_mul_of_nonneg_right
    (by exact_mod_cast (by omega : 31 ≤ 5 * max m n + 31)) hu0) hu
  have hu10 : 10 * R.uw < 1 := by
    unfold StdModel.uw
    rcases max_choice R.u R.w with h | h <;> rw [h] <;> linarith
  have hmain := start_bound hρ hB hΔ
  have hfU := frob_le_of_cols hη hU
  have hfV := frob_le_of_cols hη hVt
  obtain ⟨G, hG⟩ : ∃ G, G = (1 + R.u) * (1 + reflErrs R (max m n) (2 * d - 1)) := ⟨_, rfl⟩
  obtain ⟨H, hH⟩ : ∃ H, H = 1 + reflErrs R (max m n) d := ⟨_, rfl⟩
  have hG1 : 1 ≤ G := by rw [hG]; nlinarith [mul_nonneg hu0 hρ]
  have hH1 : 1 ≤ H := by rw [hH]; linarith
  have hH' : reflErrs R (max m n) d = H - 1 := by rw [hH]; ring
  rw [hH'] at hfU hfV
  rw [← hG] at hmain ⊢
  rw [← hH]
  have hbX : bidiag d (fun i => |(b.diagonal.get i).v|) (fun i => |(b.offDiagonal.get i).v|) =
    biD d (dv b.intoDiagonals.1) (dv b.intoDiagonals.2) := rfl
  have h10 : svdFac R 0 = 1 := pow_zero _
  by_cases h : n ≤ m
  · have hdn : d = n := by omega
    subst hdn
    rw [BidiagonalDecomp.bMatV, if_pos (by rw [hup]; simp [h]), hbX] at hSΔ
    have hdec : decide (d ≤ m) = true := by simp [h]
    rw [hdec] at hV0 hV ⊢
    have env : SvdEnv R B G H := ⟨hu10, by linarith, he, by
      rcases hB1 with h | h
      · left; exact h
      · right; linarith, hG1, hH1⟩
    refine wp_conseq (svdIter_rnd (p := m) (d := d) (up := true) (A := B) fuel env hE hK hV0 hV hval hd0 hsh ?_) ?_
    · refine ⟨P, Qtᵀ, oP, by rw [Matrix.transpose_transpose]; exact oQ, fun _ => ?_, ?_, ?_⟩
      · rw [Matrix.transpose_transpose, ← hSΔ, h10, mul_one]
        exact hmain
      · intro X hX
        simp only [leftF, if_true] at hX
        cases cu
        · simp at hX
        · simp only [if_true, Option.map_some, Option.some.injEq] at hX
          rw [← hX, h10, mul_one]; exact hfU
      · intro X hX
        simp only [rightF, if_true] at hX
        cases cv
        · simp at hX
        · simp only [if_true, Option.map_some, Option.some.injEq] at hX
          rw [← hX, h10, mul_one]; exact hfV
    · rintro st ⟨sh, L, W, oL, oW, g1, g2, g3⟩
      refine ⟨sh, L, Wᵀ, oL, by rw [Matrix.transpose_transpose]; exact oW, g1, ?_, ?_⟩
      · intro X hX
        exact g2 _ (by simp [leftF, hX])
      · intro X hX
        have := g3 (toMat d d (Rnd.vals X))ᵀ (by simp only [rightF, if_true, hX, Option.map_some])
        rwa [← frob_transpose, Matrix.transpose_sub, Matrix.transpose_transpose] at this
  · have hdn : d = m := by omega
    subst hdn
    rw [BidiagonalDecomp.bMatV, if_neg (by rw [hup]; simp [h]), hbX] at hSΔ
    have hdec : decide (n ≤ d) = false := by simp [h]
    rw [hdec] at hV0 hV ⊢
    have env : SvdEnv R Bᵀ G H := ⟨hu10, by linarith, he, by
      rw [frob_transpose]
      rcases hB1 with h | h
      · left; rw [h, Matrix.transpose_zero]
      · right; linarith, hG1, hH1⟩
    refine wp_conseq (svdIter_rnd (p := n) (d := d) (up := false) (A := Bᵀ) fuel env hE hK hV0 hV hval hd0 hsh ?_) ?_
    · refine ⟨Qtᵀ, P, by rw [Matrix.transpose_transpose]; exact oQ, oP, fun _ => ?_, ?_, ?_⟩
      · rw [h10, mul_one, frob_transpose, ← frob_transpose (Bᵀ - _), Matrix.transpose_sub, Matrix.transpose_mul,
          Matrix.transpose_mul, Matrix.transpose_transpose, Matrix.transpose_transpose, Matrix.transpose_transpose,
          ← Matrix.mul_assoc, ← hSΔ]
        exact hmain
      · intro X hX
        simp only [leftF, Bool.false_eq_true, if_false] at hX
        cases cv
        · simp at hX
        · simp only [if_true, Option.map_some, Option.some.injEq] at hX
          rw [← hX, h10, mul_one]; exact hfV
      · intro X hX
        simp only [rightF, Bool.false_eq_true, if_false] at hX
        cases cu
        · simp at hX
        · simp only [if_true, Option.map_some, Option.some.injEq] at hX
          rw [← hX, h10, mul_one]; exact hfU
    · rintro st ⟨sh, L, W, oL, oW, g1, g2, g3⟩
      refine ⟨sh, W, Lᵀ, oW, by rw [Matrix.transpose_transpose]; exact oL, ?_, ?_, ?_⟩
      · intro hv
        have := g1 hv
        rw [frob_transpose, ← frob_transpose (Bᵀ - _), Matrix.transpose_sub, Matrix.transpose_mul,
          Matrix.transpose_mul, Matrix.transpose_transpose, Matrix.transpose_transpose, Matrix.diagonal_transpose,
          ← Matrix.mul_assoc] at this
        exact this
      · intro X hX
        exact g3 _ (by simp [rightF, hX])
      · intro X hX
        have := g2 (toMat d n (Rnd.vals X))ᵀ (by simp only [leftF, Bool.false_eq_true, if_false, hX, Option.map_some])
        rwa [← frob_transpose, Matrix.transpose_sub, Matrix.transpose_transpose] at this

/-- What `svd` returns in floating point. -/
def SvdFloatResult (val : Prop) (m n K k : Nat) (a : Arr2 (Rnd R))
    (r : Option (Arr2 (Rnd R)) × Arr1 (Rnd R) × Option (Arr2 (Rnd R))) : Prop :=
  ∃ (P : Matrix (Fin m) (Fin (min m n)) ℝ) (Q : Matrix (Fin (min m n)) (Fin n) ℝ), Pᵀ * P = 1 ∧ Q * Qᵀ = 1 ∧
    (val → frob (toMat m n (Rnd.vals a) - P * (diagonal fun i : Fin (min m n) => (r.2.1.get i).v) * Q) ≤
      svdErrGood R m n K k * frob (toMat m n (Rnd.vals a))) ∧
    (∀ U, r.1 = some U → ∀ j : Fin (min m n), (∀ i, (U.get i j).v = 0) ∨
      colNorm (toMat m (min m n) (Rnd.vals U) - P) j ≤ svdVecErrGood R m n K k) ∧
    ∀ V, r.2.2 = some V → frob (toMat (min m n) n (Rnd.vals V) - Q) ≤ svdVecErrGood R m n K k

theorem colNorm_le_frob' {m n : Nat} (M : Matrix (Fin m) (Fin n) ℝ) (j : Fin n) : colNorm M j ≤ frob M := by
  refine (le_abs_self _).trans (abs_le_of_sq_le_sq (a := colNorm M j) ?_ (frob_nonneg _))
  rw [colNorm_sq, frob_sq, Finset.sum_comm]
  exact Finset.single_le_sum (f := fun j => ∑ i, M i j ^ 2) (fun _ _ => Finset.sum_nonneg fun _ _ => sq_nonneg _)
    (Finset.mem_univ j)

theorem svdGo_rnd {m n : Nat} (fuel : Nat) (a : Arr2 (Rnd R)) (ha : HasShape a m n) (hm : m ≠ 0) (hn : n ≠ 0)
    (hu : ((5 * max m n + 31 : Nat) : ℝ) * R.u < 1) (hw : 10 * R.w < 1) (he : 0 ≤ R.eps) {eps : Rnd R}
    (hE : EpsOk R eps) {cu cv : Bool} {val : Prop} {K : Nat} (hK : 104 * ((K : ℝ) ^ 2 * gam R.uw 10) ≤ 1)
    (hval : val → 2 ≤ min m n → (cu = false ∧ cv = false) ∨
      (1 ≤ K ∧ ∀ st, SvdVisits a cu cv eps st → SvdBlockGood K st)) :
    wp (svdGo fuel a cu cv eps) (fun r => r.2.1.len = min m n ∧ (∀ U ∈ r.1, HasShape U m (min m n)) ∧
      (∀ V ∈ r.2.2, HasShape V (min m n) n) ∧ r.1.isSome = cu ∧ r.2.2.isSome = cv ∧
      (∀ k, k < min m n → 0 ≤ (r.2.1.get k).v) ∧ SvdFloatResult val m n K fuel a r) (fun f => f = .fuel) := by
  obtain ⟨B, hm0, hAB, s1, s2, s3⟩ := scaleDownRect_rnd a ha (by omega) (by omega)
  obtain ⟨b, U, Vt, e1, e2, e3, -, hs, hgo⟩ := svdGo_eq a (by rw [ha.1]; exact hm) (by rw [ha.2]; exact hn)
  rw [hgo, ha.1, ha.2]
  have hs' := hs cu cv
  rw [ha.1, ha.2] at hs'
  obtain ⟨d, hd⟩ : ∃ d, d = min m n := ⟨_, rfl⟩
  unfold SvdFloatResult svdErrGood svdVecErrGood
  rw [← hd] at hs' ⊢
  have core := svdCore_rnd fuel s1 hd (by omega) hu hw he hE hK s2 s3 e1 e2 e3 hs' (V := SvdVisits a cu cv eps)
    (fun s' x t hx => .start ⟨b, U, Vt, e1, e2, e3, by rw [ha.1, ha.2, ← hd]; exact hx⟩)
    (fun st st' h1 h2 h3 => .step h1 h2 (by rw [ha.1, ha.2]; exact h3)) (hd ▸ hval)
  rw [wp_bind] at core ⊢
  refine wp_conseq core ?_
  rintro ⟨s, start, e⟩ hl
  simp only at hl ⊢
  rw [wp_bind]
  refine wp_conseq hl ?_
  rintro st ⟨sh, P, Q, oP, oQ, g1, g2, g3⟩
  rw [wp_bind]
  refine wp_mono (fixSigns_rnd _ _ (by exact sh.dlen) sh.u sh.hu) ?_ (fun _ h => h.elim)
  rintro ⟨dg, u⟩ ⟨l1, l2, l3, l4, l5⟩
  simp only at l1 l2 l3 l4 l5 ⊢
  have hu0 := R.u_nonneg
  obtain ⟨G, hG⟩ : ∃ G, G = (1 + R.u) * (1 + reflErrs R (max m n) (2 * d - 1)) * svdFac R (svdOpsGood d K fuel) := ⟨_, rfl⟩
  rw [← hG] at g1
  have hG' : (1 + R.u) ^ 2 * (1 + reflErrs R (max m n) (2 * d - 1)) * svdFac R (svdOpsGood d K fuel) = (1 + R.u) * G := by
    rw [hG]; ring
  rw [hG']
  -- the signs
  let t : Nat → ℝ := fun k => if R.rnd (dv st.s.diag k * a.amax.v) < 0 then -1 else 1
  have ht2 : ∀ k, t k * t k = 1 := fun k => by simp only [t]; split_ifs <;> norm_num
  have hv : ∀ k, k < d → (dg.get k).v = t k * R.rnd (dv st.s.diag k * a.amax.v) := by
    intro k hk
    rw [l4 k hk]
    show |R.rnd (dv st.s.diag k * a.amax.v)| = t k * R.rnd (dv st.s.diag k * a.amax.v)
    by_cases h : R.rnd (dv st.s.diag k * a.amax.v) < 0
    · rw [show t k = -1 from if_pos h, abs_of_neg h]; ring
    · rw [show t k = 1 from if_neg h, abs_of_nonneg (not_lt.1 h)]; ring
  have hT : (diagonal fun i : Fin d => t i) * (diagonal fun i : Fin d => t i) = (1 : Matrix (Fin d) (Fin d) ℝ) := by
    rw [Matrix.diagonal_mul_diagonal]
    simp only [ht2, Matrix.diagonal_one]
  refine ⟨l1, l2, sh.vt, l3, sh.hv, fun k hk => by rw [l4 k hk]; exact abs_nonneg _,
    P * (diagonal fun i : Fin d => t i), Q, ?_, oQ, ?_, ?_, ?_⟩
  · rw [Matrix.transpose_mul, Matrix.diagonal_transpose, Matrix.mul_assoc, ← Matrix.mul_assoc Pᵀ, oP, Matrix.one_mul, hT]
  · intro hv'
    have hDD : P * (diagonal fun i : Fin d => t i) * (diagonal fun i : Fin d => (dg.get i).v) * Q =
        P * (diagonal fun i : Fin d => R.rnd (dv st.s.diag i * a.amax.v)) * Q := by
      rw [Matrix.mul_assoc P, Matrix.diagonal_mul_diagonal]
      congr 2
      congr 1
      funext i
      rw [hv i i.2, ← mul_assoc, ht2, one_mul]
    rw [hDD]
    obtain ⟨D, hD⟩ : ∃ D, D = (diagonal fun i : Fin d => dv st.s.diag i) := ⟨_, rfl⟩
    have hb := g1 hv'
    rw [← hD] at hb
    have h1 : frob (toMat m n (Rnd.vals a) - P * (a.amax.v • D) * Q) ≤ (G - 1) * frob (toMat m n (Rnd.vals a)) := by
      rw [hAB, Matrix.mul_smul, Matrix.smul_mul, ← smul_sub, frob_smul, frob_smul, abs_of_nonneg hm0]
      calc a.amax.v * _ ≤ a.amax.v * ((G - 1) * frob B) := mul_le_mul_of_nonneg_left hb hm0
        _ = _ := by ring
    have horth : ∀ Z : Matrix (Fin d) (Fin d) ℝ, frob (P * Z * Q) = frob Z := fun Z => by
      rw [frob_mul_orth oQ, frob_orth_mul oP]
    have h2 : frob (a.amax.v • D) ≤ G * frob (toMat m n (Rnd.vals a)) := by
      rw [← horth]
      have := frob_sub_le (P * (a.amax.v • D) * Q) (toMat m n (Rnd.vals a)) 0
      rw [sub_zero, sub_zero, ← frob_neg (P * (a.amax.v • D) * Q - _), neg_sub] at this
      linarith
    have h3 : frob (a.amax.v • D - diagonal fun i : Fin d => R.rnd (dv st.s.diag i * a.amax.v)) ≤
        R.u * frob (a.amax.v • D) := by
      rw [show R.u * frob (a.amax.v • D) = frob (R.u • a.amax.v • D) by
          rw [frob_smul R.u, abs_of_nonneg R.u_nonneg]]
      refine frob_mono fun i j => ?_
      rw [hD]
      simp only [Matrix.sub_apply, Matrix.smul_apply, Matrix.diagonal_apply, smul_eq_mul]
      split_ifs with hij
      · rw [abs_sub_comm, abs_mul, abs_of_nonneg R.u_nonneg, mul_comm a.amax.v]
        exact R.rnd_err _
      · simp
    have h4 := frob_sub_le (toMat m n (Rnd.vals a)) (P * (a.amax.v • D) * Q)
      (P * (diagonal fun i : Fin d => R.rnd (dv st.s.diag i * a.amax.v)) * Q)
    rw [← Matrix.sub_mul, ← Matrix.mul_sub, horth] at h4
    nlinarith [mul_le_mul_of_nonneg_left h2 hu0]
  · intro U' hU' j
    obtain ⟨U0, hU0, hval'⟩ := l5 U' hU'
    by_cases hneg : R.rnd (dv st.s.diag j * a.amax.v) < 0
    · left
      intro i
      rw [hval' i j j.2, if_pos (by simpa [Arr1.map, dv] using hneg)]
    · right
      refine le_trans (le_of_eq ?_) ((colNorm_le_frob' (toMat m d (Rnd.vals U0) - P) j).trans (g2 U0 hU0))
      unfold colNorm
      congr 1
      refine Finset.sum_congr rfl fun i _ => ?_
      simp only [Matrix.sub_apply, toMat_apply, Rnd.vals, Matrix.mul_diagonal, t, if_neg hneg, mul_one]
      rw [hval' i j j.2, if_neg (by simpa [Arr1.map, dv] using hneg)]
  · exact g3

end LinfaLinalg
