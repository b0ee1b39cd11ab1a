import Verif.Proofs.RoundedSvd

/-! # Rounding errors of `svd`: `delimit_subproblem` -/

set_option linter.unusedSimpArgs false
set_option linter.unusedSectionVars false

namespace LinfaLinalg

open Matrix

variable {R : StdModel}

/-- What is assumed about the arithmetic and the scaled matrix. -/
structure SvdEnv (R : StdModel) {p d : Nat} (A : Matrix (Fin p) (Fin d) ℝ) (G H : ℝ) : Prop where
  hu : 10 * R.uw < 1
  hu' : R.u ≤ 1 / 10
  he : 0 ≤ R.eps
  hA : A = 0 ∨ 1 - R.u ≤ frob A
  hG : 1 ≤ G
  hH : 1 ≤ H

/-- The state of `svd` after `N` operations: `BiQ` with `G` and `H` multiplied by `svdFac R N`. -/
def SvdQ (val : Prop) {p d : Nat} (A : Matrix (Fin p) (Fin d) ℝ) (up : Bool) (G H : ℝ) (N : Nat)
    (X : Matrix (Fin d) (Fin d) ℝ) (s : SvdData (Rnd R)) : Prop :=
  BiQ val A X (leftF p d up s) (rightF d up s) (G * svdFac R N) (H * svdFac R N)

section
variable {val : Prop} {p d N : Nat} {A : Matrix (Fin p) (Fin d) ℝ} {up cu cv : Bool} {G H : ℝ}
  {X X' Z : Matrix (Fin d) (Fin d) ℝ} {s s' : SvdData (Rnd R)}

theorem SvdEnv.gam (e : SvdEnv R A G H) : 0 ≤ gam R.uw 10 := gam_nonneg R.uw_nonneg (by exact_mod_cast e.hu)

theorem SvdEnv.one_le (e : SvdEnv R A G H) : 1 ≤ (1 + svdRotErr R) * (1 + svdDeflErr R) := by
  have h1 := svdRotErr_nonneg e.hu
  have h2 := svdDeflErr_nonneg e.he
  nlinarith [mul_nonneg h1 h2]

theorem SvdEnv.fac_le (e : SvdEnv R A G H) {n m : Nat} (h : n ≤ m) : svdFac R n ≤ svdFac R m :=
  pow_le_pow_right₀ e.one_le h

theorem SvdEnv.one_le_fac (e : SvdEnv R A G H) (n : Nat) : 1 ≤ svdFac R n := one_le_pow₀ e.one_le

theorem SvdEnv.facG (e : SvdEnv R A G H) (n : Nat) : 1 ≤ G * svdFac R n := by
  nlinarith [e.hG, e.one_le_fac n]

theorem SvdEnv.facH (e : SvdEnv R A G H) (n : Nat) : 1 ≤ H * svdFac R n := by
  nlinarith [e.hH, e.one_le_fac n]

theorem SvdQ.mono (e : SvdEnv R A G H) {M : Nat} (h : SvdQ val A up G H N X s) (hN : N ≤ M) :
    SvdQ val A up G H M X s :=
  BiQ.mono h (mul_le_mul_of_nonneg_left (e.fac_le hN) (by linarith [e.hG]))
    (mul_le_mul_of_nonneg_left (e.fac_le hN) (by linarith [e.hH]))

theorem SvdEnv.rot_le (e : SvdEnv R A G H) {K : ℝ} (hK : 1 ≤ K) (n : Nat) :
    (1 + svdRotErr R) * (K * svdFac R n) ≤ K * svdFac R (n + 1) := by
  have h1 := svdRotErr_nonneg e.hu
  have h2 := svdDeflErr_nonneg e.he
  have h3 := e.one_le_fac n
  rw [show svdFac R (n + 1) = svdFac R n * ((1 + svdRotErr R) * (1 + svdDeflErr R)) from pow_succ _ _]
  have : 0 ≤ (1 + svdRotErr R) * (K * svdFac R n) := by positivity
  nlinarith

theorem SvdEnv.defl_le (e : SvdEnv R A G H) {K : ℝ} (hK : 1 ≤ K) (n : Nat) :
    (1 + svdDeflErr R) * (K * svdFac R n) ≤ K * svdFac R (n + 1) := by
  have h1 := svdRotErr_nonneg e.hu
  have h2 := svdDeflErr_nonneg e.he
  have h3 := e.one_le_fac n
  rw [show svdFac R (n + 1) = svdFac R n * ((1 + svdRotErr R) * (1 + svdDeflErr R)) from pow_succ _ _]
  have : 0 ≤ (1 + svdDeflErr R) * (K * svdFac R n) := by positivity
  nlinarith

theorem SvdQ.set (h : SvdQ val A up G H N X s) (dg o : Arr1 (Rnd R)) : SvdQ val A up G H N X (s.setDiags dg o) := h

/-- A rotation from the left. -/
theorem SvdQ.rotL (e : SvdEnv R A G H) (h : SvdQ val A up G H N X s)
    (hs : SvdShape (rowsOf p d up) (colsOf p d up) d cu cv s) {i j : Nat} {g : GivensRotation (Rnd R)} {c t : ℝ}
    (hi : i < d) (hj : j < d) (hij : i ≠ j) (h1 : c * c + t * t = 1) (hc : Rel R 3 g.c.v c) (ht : Rel R 3 g.s.v t)
    (hX : val → frob (X' - rotM d i j c (-t) * X) ≤ 5 * (2 * gam R.uw 10 * frob X)) :
    SvdQ val A up G H (N + 1) X' (s.rotL up g i j) := by
  have hg := e.gam
  have := BiQ.left (Z := rotM d i j c t) (ε := svdRotErr R) (X' := X') (lc' := leftF p d up (s.rotL up g i j)) h
    (rotM_orth hi hj hij h1) (svdRotErr_nonneg e.hu) (by linarith [e.facH N])
    (fun hv => by
      rw [rotM_transpose _ _ _ hij]
      refine (hX hv).trans ?_
      unfold svdRotErr
      nlinarith [mul_nonneg hg (frob_nonneg X)])
    (leftF_rotL hs hi hj hij e.hu h1 hc ht)
  unfold SvdQ
  rw [rightF_rotL]
  exact this.mono (e.rot_le e.hG N) (e.rot_le e.hH N)

/-- A rotation from the right. -/
theorem SvdQ.rotR (e : SvdEnv R A G H) (h : SvdQ val A up G H N X s)
    (hs : SvdShape (rowsOf p d up) (colsOf p d up) d cu cv s) {i j : Nat} {g : GivensRotation (Rnd R)} {c t : ℝ}
    (hi : i < d) (hj : j < d) (hij : i ≠ j) (h1 : c * c + t * t = 1) (hc : Rel R 3 g.c.v c) (ht : Rel R 3 g.s.v t)
    (hX : val → frob (X' - X * rotM d i j c t) ≤ 5 * (2 * gam R.uw 10 * frob X)) :
    SvdQ val A up G H (N + 1) X' (s.rotR up g i j) := by
  have hg := e.gam
  have := BiQ.right (Z := rotM d i j c t) (ε := svdRotErr R) (X' := X') (rc' := rightF d up (s.rotR up g i j)) h
    (rotM_orth hi hj hij h1) (svdRotErr_nonneg e.hu) (by linarith [e.facH N])
    (fun hv => by
      refine (hX hv).trans ?_
      unfold svdRotErr
      nlinarith [mul_nonneg hg (frob_nonneg X)])
    (rightF_rotR hs hi hj hij e.hu h1 hc ht)
  unfold SvdQ
  rw [leftF_rotR]
  exact this.mono (e.rot_le e.hG N) (e.rot_le e.hH N)

/-- An entry replaced by zero. -/
theorem SvdQ.shift (e : SvdEnv R A G H) (h : SvdQ val A up G H N X s)
    (hX : val → frob (X' - X) ≤ svdDeflErr R * (G * svdFac R N * frob A)) : SvdQ val A up G H (N + 1) X' s := by
  have := BiQ.shift h hX
  refine this.mono (e.defl_le e.hG N) (mul_le_mul_of_nonneg_left (e.fac_le (Nat.le_succ N)) (by linarith [e.hH]))

/-- An error of the size of `M` rotations. -/
theorem SvdQ.shiftN (e : SvdEnv R A G H) (M : Nat) (h : SvdQ val A up G H N X s)
    (hX : val → frob (X' - X) ≤ M * svdRotErr R * frob X) : SvdQ val A up G H (N + M) X' s := by
  have h1 := svdRotErr_nonneg e.hu
  have h2 := svdDeflErr_nonneg e.he
  have hM : 0 ≤ M * svdRotErr R := mul_nonneg (Nat.cast_nonneg M) h1
  have := BiQ.shift h (X' := X') (ε := M * svdRotErr R) fun hv =>
    (hX hv).trans (mul_le_mul_of_nonneg_left (BiQ.norm h hv) hM)
  refine this.mono ?_ (mul_le_mul_of_nonneg_left (e.fac_le (Nat.le_add_right N M)) (by linarith [e.hH]))
  have hb : 1 + M * svdRotErr R ≤ svdFac R M := by
    refine (one_add_mul_le_pow (by linarith) M).trans (pow_le_pow_left₀ (by linarith) ?_ M)
    exact le_mul_of_one_le_right (by linarith) (by linarith)
  have h3 := e.one_le_fac N
  have hG := e.hG
  calc (1 + M * svdRotErr R) * (G * svdFac R N) ≤ svdFac R M * (G * svdFac R N) :=
        mul_le_mul_of_nonneg_right hb (by positivity)
    _ = G * svdFac R (N + M) := by unfold svdFac; rw [pow_add]; ring

theorem dv_upd (a : Arr1 (Rnd R)) (i : Nat) (x : Rnd R) :
    dv (a.upd i x) = fun j => if j = i then x.v else dv a j := by
  funext j
  simp only [dv, Arr1.upd_get]
  split_ifs <;> rfl

theorem dv_upd_zero (a : Arr1 (Rnd R)) (i : Nat) : dv (a.upd i 0) = zeroAt (dv a) i := by
  rw [dv_upd]; rfl

/-- The relation between the diagonals before and after `cancel_horizontal_off_diagonal_elt`. -/
structure CancelHRelF (i end_ : Nat) (s s' : SvdData (Rnd R)) : Prop where
  diag : ∀ k, k ≤ i ∨ end_ < k → dv s'.diag k = dv s.diag k
  off0 : dv s'.off i = 0
  off : ∀ k, k < i ∨ end_ ≤ k → dv s'.off k = dv s.off k
  offz : ∀ k, dv s.off k = 0 → dv s'.off k = 0

/-- `cancel_horizontal_off_diagonal_elt` in floating point. -/
theorem cancelH_rnd (e : SvdEnv R A G H) {i end_ : Nat} (h : SvdShape (rowsOf p d up) (colsOf p d up) d cu cv s)
    (hi : i < end_) (he : end_ < d) (hdi : dv s.diag i = 0) (hend : end_ + 1 < d → dv s.off end_ = 0)
    (hf : SvdQ val A up G H N (biD d (dv s.diag) (dv s.off)) s) :
    Succeeds (cancelH up i end_ s) fun s' => SvdShape (rowsOf p d up) (colsOf p d up) d cu cv s' ∧
      SvdQ val A up G H (N + d) (biD d (dv s'.diag) (dv s'.off)) s' ∧ CancelHRelF i end_ s s' := by
  refine wp_cancelH h hi he
    (fun k st => SvdQ val A up G H (N + (k - i)) (biM d (dv st.s.diag) (dv st.s.off) i (k + 1)
        (if k < end_ then st.v0.v else 0)) st.s ∧ CancelHRelF i end_ s st.s ∧
      (k < end_ → st.v1.v = dv st.s.diag (k + 1)) ∧
      (∀ j, k < j → dv st.s.diag j = dv s.diag j ∧ dv st.s.off j = dv s.off j))
    (fun s' => SvdQ val A up G H (N + d) (biD d (dv s'.diag) (dv s'.off)) s' ∧ CancelHRelF i end_ s s')
    ⟨?_, ?_, ?_, ?_⟩ ?_ ?_ ?_
  · simp only [setDiags_diag, setDiags_off, if_pos hi]
    rw [dv_upd_zero, show (s.off.get i).v = dv s.off i from rfl, biM_off, Nat.sub_self]
    exact hf
  · refine ⟨fun k _ => rfl, ?_, ?_, ?_⟩
    · simp [dv_upd]
    · intro k hk
      simp only [setDiags_off, dv_upd]
      rw [if_neg (by omega)]
    · intro k hk
      simp [setDiags_off, dv_upd, hk]
  · intro _; rfl
  · intro j hj
    simp only [setDiags_diag, setDiags_off, dv_upd]
    rw [if_neg (by omega)]; simp
  · rintro k st hk1 hk2 hs ⟨hI, hr, -, -⟩ hx
    rw [if_pos hk2, cancelX_rnd_none hx, biM_zero] at hI
    exact ⟨hI.mono e (by omega), hr⟩
  · rintro k st rot norm hk1 hk2 hs ⟨hI, hr, hv, hrest⟩ hx
    obtain ⟨c, t, ρ, hn⟩ := cancelX_rnd hx
    rw [hv hk2] at hn
    rw [if_pos hk2] at hI
    have hdi' : dv st.s.diag i = 0 := by rw [hr.diag i (Or.inl le_rfl), hdi]
    have hoff : dv (if k + 1 ≠ end_ then st.s.off.upd (k + 1) (st.s.off.get (k + 1) * rot.c)
        else st.s.off) = fun j => if k + 1 ≠ end_ ∧ j = k + 1 then
          R.rnd (dv st.s.off (k + 1) * rot.c.v) else dv st.s.off j := by
      funext j
      by_cases h1 : k + 1 ≠ end_
      · simp [h1, dv_upd]; rfl
      · simp [h1]
    have hz : k + 1 = end_ → k + 2 < d → dv st.s.off (k + 1) = 0 := by
      intro h1 h2
      rw [(hrest (k + 1) (by omega)).2, h1]
      exact hend (by omega)
    have hg := e.gam
    refine ⟨?_, ?_, ?_, ?_⟩
    · simp only [cancelHNext, rotL_diag, rotL_off, setDiags_diag, setDiags_off]
      rw [show N + (k + 1 - i) = N + (k - i) + 1 by omega]
      refine (hI.set _ _).rotL e (hs.set (by rfl) (by split_ifs <;> rfl)) (by omega) (by omega)
        (by omega) (t := -t) (by linear_combination hn.one) hn.hc hn.hs.neg ?_
      intro _
      rw [neg_neg]
      set β := frob (biM d (dv st.s.diag) (dv st.s.off) i (k + 1) st.v0.v) with hβ
      have b0 : |st.v0.v| ≤ β := abs_biM_le _ _ _ (by omega) (by omega) (by omega)
        (fun h => hr.off0)
      have b1 : |dv st.s.diag (k + 1)| ≤ β := abs_biM_diag_le _ _ _ (by omega) (fun h => by omega)
      have hε : 0 ≤ 2 * gam R.uw 10 * β := by
        have := frob_nonneg (biM d (dv st.s.diag) (dv st.s.off) i (k + 1) st.v0.v)
        positivity
      refine hstep_near hk1 (by omega) hε hdi' hr.off0 hn.rx ?_ ?_ ?_ ?_ ?_
      · intro j hj; rw [dv_upd]; simp only; rw [if_neg hj]
      · rw [dv_upd]; simp only [if_true]; rw [hn.ry]
        exact rot_norm_le e.hu hn.hr hn.pos hn.sq b0 b1
      · intro j hj; rw [hoff]; simp only; rw [if_neg (by omega)]
      · intro hk; rw [hoff]; simp only
        have b2 : |dv st.s.off (k + 1)| ≤ β := abs_biM_off_le _ _ _ (by omega) (fun h => by omega)
        by_cases h1 : k + 1 ≠ end_
        · rw [if_pos ⟨h1, trivial⟩]
          exact rot_mul_le e.hu (abs_le_one_left hn.one) hn.hc b2
        · rw [if_neg (by omega), hz (by omega) hk, zero_mul, sub_zero, abs_zero]; exact hε
      · intro hk
        have b2 : |dv st.s.off (k + 1)| ≤ β := abs_biM_off_le _ _ _ (by omega) (fun h => by omega)
        by_cases h1 : k + 1 ≠ end_
        · rw [if_pos (by omega), if_pos h1, Rnd.mul_v, Rnd.neg_v, mul_comm, mul_comm (-t)]
          exact rot_mul_le e.hu (by rw [abs_neg]; exact abs_le_one_right hn.one) hn.hs.neg b2
        · rw [if_neg (by omega), hz (by omega) hk, mul_zero, sub_zero, abs_zero]; exact hε
    · refine ⟨?_, ?_, ?_, ?_⟩
      · intro j hj
        simp only [cancelHNext, rotL_diag, setDiags_diag, dv_upd]
        rw [if_neg (by omega)]; exact hr.diag j hj
      · simp only [cancelHNext, rotL_off, setDiags_off, hoff]
        rw [if_neg (by omega)]; exact hr.off0
      · intro j hj
        simp only [cancelHNext, rotL_off, setDiags_off, hoff]
        rw [if_neg (by omega)]; exact hr.off j hj
      · intro j hj
        simp only [cancelHNext, rotL_off, setDiags_off, hoff]
        split_ifs with h1
        · rw [← h1.2, hr.offz j hj, zero_mul, R.rnd_zero]
        · exact hr.offz j hj
    · intro hk
      simp only [cancelHNext, rotL_diag, setDiags_diag, dv_upd]
      rw [if_pos (by omega), if_neg (by omega)]; rfl
    · intro j hj
      simp only [cancelHNext, rotL_diag, rotL_off, setDiags_diag, setDiags_off, dv_upd, hoff]
      rw [if_neg (by omega), if_neg (by omega)]
      exact hrest j (by omega)
  · rintro st hs ⟨hI, hr, -, -⟩
    rw [if_neg (lt_irrefl _), biM_zero] at hI
    exact ⟨hI.mono e (by omega), hr⟩

/-- The relation between the diagonals before and after `cancel_vertical_off_diagonal_elt`. -/
structure CancelVRelF (i : Nat) (s s' : SvdData (Rnd R)) : Prop where
  diag : ∀ k, i < k → dv s'.diag k = dv s.diag k
  off0 : dv s'.off i = 0
  off : ∀ k, i < k → dv s'.off k = dv s.off k
  offz : ∀ k, dv s.off k = 0 → dv s'.off k = 0

/-- `cancel_vertical_off_diagonal_elt` in floating point. -/
theorem cancelV_rnd (e : SvdEnv R A G H) {i : Nat} (h : SvdShape (rowsOf p d up) (colsOf p d up) d cu cv s)
    (hi : i + 1 < d) (hdi : dv s.diag (i + 1) = 0) (hf : SvdQ val A up G H N (biD d (dv s.diag) (dv s.off)) s) :
    Succeeds (cancelV up i s) fun s' => SvdShape (rowsOf p d up) (colsOf p d up) d cu cv s' ∧
      SvdQ val A up G H (N + d) (biD d (dv s'.diag) (dv s'.off)) s' ∧ CancelVRelF i s s' := by
  refine wp_cancelV h hi
    (fun k st => SvdQ val A up G H (N + (i + 1 - k)) (biM d (dv st.s.diag) (dv st.s.off) (k - 1) (i + 1)
        (if 0 < k then st.v1.v else 0)) st.s ∧ CancelVRelF i s st.s ∧
      (0 < k → st.v0.v = dv st.s.diag (k - 1)))
    (fun s' => SvdQ val A up G H (N + d) (biD d (dv s'.diag) (dv s'.off)) s' ∧ CancelVRelF i s s')
    ⟨?_, ?_, ?_⟩ ?_ ?_ ?_
  · simp only [setDiags_diag, setDiags_off, if_pos (Nat.succ_pos i), Nat.add_sub_cancel]
    rw [dv_upd_zero, show (s.off.get i).v = dv s.off i from rfl, biM_off, Nat.sub_self]
    exact hf
  · refine ⟨fun k _ => rfl, ?_, ?_, ?_⟩
    · simp [dv_upd]
    · intro k hk
      simp only [setDiags_off, dv_upd]
      rw [if_neg (by omega)]
    · intro k hk
      simp [setDiags_off, dv_upd, hk]
  · intro _; rfl
  · rintro k st hk hs ⟨hI, hr, -⟩ hx
    rw [if_pos (Nat.succ_pos k), cancelY_rnd_none hx, biM_zero] at hI
    exact ⟨hI.mono e (by omega), hr⟩
  · rintro k st rot norm hk hs ⟨hI, hr, hv⟩ hx
    obtain ⟨c, t, ρ, hn⟩ := cancelY_rnd hx
    rw [hv (Nat.succ_pos k), Nat.add_sub_cancel] at hn
    rw [if_pos (Nat.succ_pos k), Nat.add_sub_cancel] at hI
    have hdi' : dv st.s.diag (i + 1) = 0 := by rw [hr.diag (i + 1) (by omega), hdi]
    have hoff : dv (if 0 < k then st.s.off.upd (k - 1) (st.s.off.get (k - 1) * rot.c)
        else st.s.off) = fun j => if j + 1 = k then
          R.rnd (dv st.s.off j * rot.c.v) else dv st.s.off j := by
      funext j
      by_cases h1 : 0 < k
      · rw [if_pos h1, dv_upd]
        simp only
        by_cases h2 : j = k - 1
        · rw [if_pos h2, if_pos (by omega), h2]; rfl
        · rw [if_neg h2, if_neg (by omega)]
      · rw [if_neg h1, if_neg (by omega)]
    have hg := e.gam
    refine ⟨?_, ?_, ?_⟩
    · simp only [cancelVNext, rotR_diag, rotR_off, setDiags_diag, setDiags_off]
      rw [show N + (i + 1 - k) = N + (i + 1 - (k + 1)) + 1 by omega]
      refine (hI.set _ _).rotR e (hs.set (by rfl) (by split_ifs <;> rfl)) (by omega) (by omega)
        (by omega) (t := -t) (by linear_combination hn.one) (hn.hc.mono (by norm_num))
        (hn.hs.neg.mono (by norm_num)) ?_
      intro _
      set β := frob (biM d (dv st.s.diag) (dv st.s.off) k (i + 1) st.v1.v) with hβ
      have b0 : |st.v1.v| ≤ β := abs_biM_le _ _ _ (by omega) (by omega) (by omega)
        (fun h => by rw [show k = i by omega]; exact hr.off0)
      have b1 : |dv st.s.diag k| ≤ β := abs_biM_diag_le _ _ _ (by omega) (fun h => by omega)
      have b2 : ∀ j, j + 1 = k → |dv st.s.off j| ≤ β := fun j hj =>
        abs_biM_off_le _ _ _ (by omega) (fun h => by omega)
      have hε : 0 ≤ 2 * gam R.uw 10 * β := by
        have := frob_nonneg (biM d (dv st.s.diag) (dv st.s.off) k (i + 1) st.v1.v)
        positivity
      refine vstep_near hk hi hε hdi' hr.off0 hn.ry ?_ ?_ ?_ ?_ ?_ ?_
      · intro j hj; rw [dv_upd]; simp only; rw [if_neg hj]
      · rw [dv_upd]; simp only [if_true]; rw [hn.rx]
        exact rot_norm_le e.hu hn.hr hn.pos hn.sq b1 b0
      · intro j hj; rw [hoff]; simp only; rw [if_neg hj]
      · intro j hj; rw [hoff]; simp only; rw [if_pos hj]
        exact rot_mul_le e.hu (abs_le_one_left hn.one) (hn.hc.mono (by norm_num)) (b2 j hj)
      · intro j hj
        rw [if_pos (by omega), if_pos (by omega), show k - 1 = j by omega, Rnd.mul_v, mul_comm, mul_comm t]
        exact rot_mul_le e.hu (abs_le_one_right hn.one) (hn.hs.mono (by norm_num)) (b2 j hj)
      · intro hk; rw [if_neg (by omega)]
    · refine ⟨?_, ?_, ?_, ?_⟩
      · intro j hj
        simp only [cancelVNext, rotR_diag, setDiags_diag, dv_upd]
        rw [if_neg (by omega)]; exact hr.diag j hj
      · simp only [cancelVNext, rotR_off, setDiags_off, hoff]
        rw [if_neg (by omega)]; exact hr.off0
      · intro j hj
        simp only [cancelVNext, rotR_off, setDiags_off, hoff]
        rw [if_neg (by omega)]; exact hr.off j hj
      · intro j hj
        simp only [cancelVNext, rotR_off, setDiags_off, hoff]
        rw [hr.offz j hj, zero_mul, R.rnd_zero, ite_self]
    · intro hk
      simp only [cancelVNext, rotR_diag, setDiags_diag, dv_upd]
      rw [if_pos hk, if_neg (by omega)]; rfl
  · rintro st hs ⟨hI, hr, -⟩
    rw [if_neg (lt_irrefl _), biM_zero] at hI
    exact ⟨hI.mono e (by omega), hr⟩

/-! ## `delimit_subproblem` -/

/-- What is assumed about the deflation threshold: it is `5 ε` up to two roundings. -/
structure EpsOk (R : StdModel) (eps : Rnd R) : Prop where
  nonneg : 0 ≤ eps.v
  le : eps.v ≤ 5 * (1 + R.u) ^ 2 * R.eps

theorem SvdQ.drop (e : SvdEnv R A G H) {eps : Rnd R} (he : EpsOk R eps) {m : Nat}
    (h : SvdQ val A up G H N (biD d (dv s.diag) (dv s.off)) s) (hm : m + 1 < d)
    (hs : NdFloat.isZero (s.off.get m) = true ∨ svdSmall eps s m) :
    SvdQ val A up G H (N + 1) (biD d (dv (s.setDiags s.diag (s.off.upd m 0)).diag)
      (dv (s.setDiags s.diag (s.off.upd m 0)).off)) (s.setDiags s.diag (s.off.upd m 0)) := by
  refine (h.set _ _).shift e fun hv => ?_
  simp only [setDiags_diag, setDiags_off, dv_upd_zero]
  rw [← frob_neg, neg_sub]
  refine (frob_biD_off _ _ hm).trans ?_
  have hn := BiQ.norm h hv
  have hu := R.u_nonneg
  have h0 := svdDeflErr_nonneg e.he
  have key : |dv s.off m| ≤ svdDeflErr R * frob (biD d (dv s.diag) (dv s.off)) := by
    rcases hs with hs | hs
    · simp only [Rnd.isZero_v, decide_eq_true_eq] at hs
      rw [show dv s.off m = 0 from hs, abs_zero]
      exact mul_nonneg h0 (frob_nonneg _)
    · simp only [svdSmall, Rnd.le_v, Rnd.mul_v, Rnd.add_v, Rnd.abs_v, decide_eq_true_eq] at hs
      refine hs.trans ((defl_le he.nonneg).trans ?_)
      have b1 := abs_diag_le_frob (dv s.diag) (dv s.off) (show m < d by omega)
      have b2 := abs_diag_le_frob (dv s.diag) (dv s.off) hm
      have b3 := frob_nonneg (biD d (dv s.diag) (dv s.off))
      unfold svdDeflErr
      calc _ ≤ (1 + R.u) ^ 2 * (5 * (1 + R.u) ^ 2 * R.eps) *
            (frob (biD d (dv s.diag) (dv s.off)) + frob (biD d (dv s.diag) (dv s.off))) := by
            have := e.he
            gcongr
            · exact he.le
            · exact b2
            · exact b1
        _ = _ := by ring
  exact key.trans (mul_le_mul_of_nonneg_left hn h0)

theorem SvdQ.kill (e : SvdEnv R A G H) {eps : Rnd R} (he : EpsOk R eps) {m : Nat}
    (h : SvdQ val A up G H N (biD d (dv s.diag) (dv s.off)) s) (hm : m < d) (hs : svdTiny eps s m) :
    SvdQ val A up G H (N + 1) (biD d (dv (s.setDiags (s.diag.upd m 0) s.off).diag)
      (dv (s.setDiags (s.diag.upd m 0) s.off).off)) (s.setDiags (s.diag.upd m 0) s.off) := by
  refine (h.set _ _).shift e fun hv => ?_
  simp only [setDiags_diag, setDiags_off, dv_upd_zero]
  rw [← frob_neg, neg_sub]
  refine (frob_biD_diag _ _ hm).trans ?_
  have hn := BiQ.norm h hv
  have hu := R.u_nonneg
  have h0 := svdDeflErr_nonneg e.he
  have hf := frob_nonneg A
  rcases e.hA with hA | hA
  · rw [hA, frob_zero] at hn ⊢
    have := abs_diag_le_frob (dv s.diag) (dv s.off) hm
    linarith
  · simp only [svdTiny, Rnd.le_v, Rnd.abs_v, decide_eq_true_eq] at hs
    refine hs.trans (he.le.trans ?_)
    have h1 : svdDeflErr R * (1 - R.u) ≤ svdDeflErr R * (G * svdFac R N * frob A) := by
      apply mul_le_mul_of_nonneg_left _ h0
      nlinarith [e.facG N]
    refine le_trans ?_ h1
    unfold svdDeflErr
    have h2 : 5 * (1 + R.u) ^ 2 ≤ 10 * (1 + R.u) ^ 4 * (1 - R.u) := by
      have h3 : (1 : ℝ) ≤ (1 + R.u) ^ 2 := one_le_pow₀ (by linarith)
      have h4 : (1 : ℝ) ≤ 2 * (1 - R.u) := by linarith [e.hu']
      have h5 : (1 : ℝ) ≤ (1 + R.u) ^ 2 * (2 * (1 - R.u)) := by nlinarith
      nlinarith
    have := mul_le_mul_of_nonneg_right h2 e.he
    linarith

/-- The relation between the off-diagonals before and after `svdKill m n`. -/
structure KillRelF (m n : Nat) (s s' : SvdData (Rnd R)) : Prop where
  off0 : dv s'.off m = 0
  off : ∀ k, n ≤ k → dv s'.off k = dv s.off k
  offz : ∀ k, dv s.off k = 0 → dv s'.off k = 0

theorem svdKill_rnd (e : SvdEnv R A G H) {eps : Rnd R} (he : EpsOk R eps) {m n : Nat}
    (h : SvdShape (rowsOf p d up) (colsOf p d up) d cu cv s)
    (hf : SvdQ val A up G H N (biD d (dv s.diag) (dv s.off)) s) (hm : m < n) (hn : n < d) (hs : svdTiny eps s m)
    (hend : n + 1 < d → dv s.off n = 0) :
    Succeeds (svdKill up m n s) fun s' => SvdShape (rowsOf p d up) (colsOf p d up) d cu cv s' ∧
      SvdQ val A up G H (N + (2 * d + 1)) (biD d (dv s'.diag) (dv s'.off)) s' ∧ KillRelF m n s s' := by
  unfold svdKill Succeeds
  rw [wp_bind]
  refine wp_conseq (cancelH_rnd e (h.set (dg := s.diag.upd m 0) rfl rfl) hm hn (by simp [dv_upd]) hend
    (hf.kill e he (by omega) hs)) ?_
  rintro s1 ⟨hs1, hf1, hr1⟩
  have hr1' : KillRelF m n s s1 := ⟨hr1.off0, fun k hk => hr1.off k (Or.inr hk), hr1.offz⟩
  by_cases h0 : m = 0
  · rw [if_neg (by simpa using h0)]
    exact ⟨hs1, hf1.mono e (by omega), hr1'⟩
  · rw [if_pos h0]
    refine wp_conseq (cancelV_rnd e hs1 (show m - 1 + 1 < d by omega) ?_ hf1) ?_
    · rw [show m - 1 + 1 = m by omega, hr1.diag m (Or.inl le_rfl)]
      simp [dv_upd]
    · rintro s2 ⟨hs2, hf2, hr2⟩
      have e1 : dv s2.off m = 0 := by rw [hr2.off m (by omega)]; exact hr1.off0
      exact ⟨hs2, hf2.mono e (by omega), e1, fun k hk => by rw [hr2.off k (by omega), hr1'.off k hk],
        fun k hk => hr2.offz k (hr1.offz k hk)⟩

/-- What holds after `delimit_subproblem`. -/
structure SvdGoodF (d : Nat) (s : SvdData (Rnd R)) (start e : Nat) : Prop where
  offz : ∀ k, e ≤ k → k + 1 < d → dv s.off k = 0
  start0 : start ≠ 0 → dv s.off (start - 1) = 0

theorem svdDelimit_rnd (e : SvdEnv R A G H) {eps : Rnd R} (he : EpsOk R eps) {n : Nat}
    (h : SvdShape (rowsOf p d up) (colsOf p d up) d cu cv s)
    (hf : SvdQ val A up G H N (biD d (dv s.diag) (dv s.off)) s) (hn : n < d)
    (hz : ∀ k, n ≤ k → k + 1 < d → dv s.off k = 0) :
    Succeeds (svdDelimit up n eps s) fun q =>
      SvdShape (rowsOf p d up) (colsOf p d up) d cu cv q.1 ∧
      SvdQ val A up G H (N + d * (2 * d + 1)) (biD d (dv q.1.diag) (dv q.1.off)) q.1 ∧
      SvdGoodF d q.1 q.2.1 q.2.2 ∧ q.2.2 ≤ n := by
  obtain ⟨K, hK⟩ : ∃ K, K = 2 * d + 1 := ⟨_, rfl⟩
  rw [← hK]
  have hstep : ∀ m, m < n → (n - m) * K = (n - (m + 1)) * K + K := by
    intro m hm
    rw [← Nat.succ_mul]; congr 1; omega
  unfold svdDelimit Succeeds
  rw [wp_bind]
  refine wp_conseq (wp_svdDelimitEnd hn h
    (fun m s => SvdQ val A up G H (N + (n - m) * K) (biD d (dv s.diag) (dv s.off)) s ∧
      (∀ k, m ≤ k → k + 1 < d → dv s.off k = 0))
    (fun s m => SvdQ val A up G H (N + n * K) (biD d (dv s.diag) (dv s.off)) s ∧
      (∀ k, m ≤ k → k + 1 < d → dv s.off k = 0))
    ⟨by rw [Nat.sub_self, Nat.zero_mul]; exact hf, hz⟩ ?_ ?_ ?_ ?_ ?_) ?_
  · rintro m s hm hs ⟨hf, hz⟩ hor
    refine ⟨(hf.drop e he (by omega) hor).mono e (by rw [hstep m hm]; omega), ?_⟩
    intro k hk hkd
    simp only [setDiags_off, dv_upd]
    split_ifs with h1
    · rfl
    · exact hz k (by omega) hkd
  · rintro m s hm hs ⟨hf, hz⟩ h0 h1 h2
    refine wp_conseq (svdKill_rnd e he hs hf (by omega) (by omega) h2 (fun hd => hz (m + 1) le_rfl hd)) ?_
    rintro s' ⟨hs', hf', hr⟩
    refine ⟨hs', hf'.mono e (by rw [hstep m hm]; omega), fun k hk hkd => ?_⟩
    by_cases hkm : k = m
    · rw [hkm]; exact hr.off0
    · exact hr.offz k (hz k (by omega) hkd)
  · rintro m s hm hs ⟨hf, hz⟩ h0 h1 h2 h3
    refine wp_conseq (cancelV_rnd e (hs.set (dg := s.diag.upd (m + 1) 0) rfl rfl)
      (show m + 1 < d by omega) (by simp [dv_upd]) (hf.kill e he (by omega) h3)) ?_
    rintro s' ⟨hs', hf', hr⟩
    refine ⟨hs', hf'.mono e (by rw [hstep m hm]; omega), fun k hk hkd => ?_⟩
    by_cases hkm : k = m
    · rw [hkm]; exact hr.off0
    · exact hr.offz k (hz k (by omega) hkd)
  · rintro m s hm hs ⟨hf, hz⟩ h0 h1 h2 h3
    exact ⟨hf.mono e (Nat.add_le_add_left (Nat.mul_le_mul_right _ (by omega)) _), hz⟩
  · rintro s hs ⟨hf, hz⟩
    exact ⟨hf, hz⟩
  · rintro ⟨s1, m1⟩ ⟨hs1, hm1, hf1, hz1⟩
    simp only at hs1 hm1 hf1 hz1 ⊢
    have hfin : ∀ {X : Matrix (Fin d) (Fin d) ℝ} {s : SvdData (Rnd R)} {M : Nat}, M ≤ n * K + K →
        SvdQ val A up G H (N + M) X s → SvdQ val A up G H (N + d * K) X s := by
      intro X s M hM hq
      refine hq.mono e (Nat.add_le_add_left (hM.trans ?_) _)
      rw [← Nat.succ_mul]; exact Nat.mul_le_mul_right _ hn
    by_cases hn0 : m1 = 0
    · rw [if_pos hn0]
      subst hn0
      exact ⟨hs1, hfin (by omega) hf1, ⟨hz1, fun h => absurd rfl h⟩, Nat.zero_le _⟩
    · rw [if_neg hn0, wp_bind]
      refine wp_conseq (wp_svdDelimitStart (e := m1 - 1) (by omega) (by omega) hs1
        (fun m s => SvdQ val A up G H (N + n * K) (biD d (dv s.diag) (dv s.off)) s ∧
          (∀ k, m1 ≤ k → k + 1 < d → dv s.off k = 0))
        (fun s m => SvdQ val A up G H (N + d * K) (biD d (dv s.diag) (dv s.off)) s ∧ SvdGoodF d s m m1)
        ⟨hf1, hz1⟩ ?_ ?_ ?_ ?_) ?_
      · rintro m s hm hs ⟨hf, hz⟩ hsm
        refine ⟨hfin (M := n * K + 1) (by omega) (hf.drop e he (by omega) (Or.inr hsm)), ?_, ?_⟩
        · intro k hk hkd
          simp only [setDiags_off, dv_upd]
          rw [if_neg (by omega)]; exact hz k hk hkd
        · intro _
          simp [dv_upd]
      · rintro m s hm hs ⟨hf, hz⟩ hsm htn
        refine wp_conseq (svdKill_rnd e he hs hf (by omega) (by omega) htn (fun hd => hz m1 le_rfl hd)) ?_
        rintro s' ⟨hs', hf', hr⟩
        refine ⟨hs', hfin (M := n * K + K) le_rfl (by rw [hK, ← Nat.add_assoc]; rw [hK] at hf'; exact hf'), fun k hk hkd => ?_, fun _ => ?_⟩
        · exact hr.offz k (hz k hk hkd)
        · rw [Nat.add_sub_cancel]; exact hr.off0
      · rintro m s hm hs h1 hsm htn
        exact h1
      · rintro s hs ⟨hf, hz⟩
        exact ⟨hfin (by omega) hf, hz, fun h => absurd rfl h⟩
      · rintro ⟨s2, st⟩ ⟨hs2, hst, hf2, hg2⟩
        exact ⟨hs2, hf2, hg2, hm1⟩

end

end LinfaLinalg
