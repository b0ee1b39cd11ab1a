import Verif.Proofs.RoundedUptrigGood

/-! # Rounding errors of `svd`: the `2 × 2` block -/

set_option linter.unusedSimpArgs false
set_option linter.unusedSectionVars false

namespace LinfaLinalg

open Matrix

variable {R : StdModel}

section
variable {val : Prop} {p d N : Nat} {A : Matrix (Fin p) (Fin d) ℝ} {up cu cv : Bool} {G H : ℝ}

/-- The branch `subdim == 2` in floating point. -/
theorem svd2x2_rnd {st : SvdState (Rnd R)} (e : SvdEnv R A G H) {K : Nat}
    (hK : 104 * ((K : ℝ) ^ 2 * gam R.uw 10) ≤ 1)
    (hval : val → 2 ≤ d → (cu = false ∧ cv = false) ∨ (1 ≤ K ∧ SvdBlockGood K st))
    (h : SvdSt (rowsOf p d up) (colsOf p d up) d cu cv st)
    (hf : SvdQ val A up G H N (biD d (dv st.s.diag) (dv st.s.off)) st.s)
    (hg : SvdGoodF d st.s st.start st.end) (hse : st.start + 1 = st.end) :
    Succeeds (svd2x2 up cu cv st) fun st' => SvdShape (rowsOf p d up) (colsOf p d up) d cu cv st'.s ∧
      st'.end = st.end - 1 ∧ SvdQ val A up G H (N + (3 + 210 * K ^ 2)) (biD d (dv st'.s.diag) (dv st'.s.off)) st'.s ∧
      (∀ k, st.end - 1 ≤ k → k + 1 < d → dv st'.s.off k = 0) := by
  have hd := h.ltd
  obtain ⟨v1, v2, ru, rv, c, t, c', t', heq, n1, n2, q1, q2, q3, q4, hV⟩ :=
    uptrig_near e.hu hK (st.s.diag.get st.start) (st.s.off.get st.start) (st.s.diag.get (st.start + 1))
      (cu && up || cv && !up) (cv && up || cu && !up)
  obtain ⟨u', vt', e0, hu1, hv1, hu2, hv2⟩ := svd2x2_eq (up := up) h.shape (by omega : st.start + 1 < d)
  obtain ⟨sh, -, -⟩ := e0 ▸ svd2x2_shape (up := up) h.shape (by omega : st.start + 1 < d)
  rw [heq] at hu1 hv1
  rw [heq] at e0 sh
  rw [e0]
  refine ⟨sh, rfl, ?_, ?_⟩
  · have hin : ∀ g : GivensRotation (Rnd R), g.inv2 = g := fun g => by
      cases g
      simp only [GivensRotation.inv2, GivensRotation.inverse, GivensRotation.mk.injEq, true_and]
      ext; simp
    simp only at sh ⊢
    set dg := (st.s.diag.upd st.start v1).upd (st.start + 1) v2 with hdg
    have hu0 := h.shape.hu
    have hv0 := h.shape.hv
    have hun : cu = false → st.s.u = none := fun hc => by rw [hc] at hu0; simpa using hu0
    have hvn : cv = false → st.s.vt = none := fun hc => by rw [hc] at hv0; simpa using hv0
    have hdata : (⟨dg, st.s.off.upd st.start 0, u', vt'⟩ : SvdData (Rnd R)) =
        ((st.s.setDiags dg (st.s.off.upd st.start 0)).rotR up rv st.start (st.start + 1)).rotL up ru
          st.start (st.start + 1) := by
      cases up
      · have hu' : u' = st.s.u.map (rotCols rv st.start (st.start + 1)) := by
          cases cu
          · rw [hu2 rfl, hun rfl]; rfl
          · exact hu1 rv (by simp)
        have hv' : vt' = st.s.vt.map (rotRows ru st.start (st.start + 1)) := by
          cases cv
          · rw [hv2 rfl, hvn rfl]; rfl
          · rw [hv1 ru (by simp), hin]
        rw [hu', hv']; rfl
      · have hu' : u' = st.s.u.map (rotCols ru st.start (st.start + 1)) := by
          cases cu
          · rw [hu2 rfl, hun rfl]; rfl
          · exact hu1 ru (by simp)
        have hv' : vt' = st.s.vt.map (rotRows rv st.start (st.start + 1)) := by
          cases cv
          · rw [hv2 rfl, hvn rfl]; rfl
          · rw [hv1 rv (by simp), hin]
        rw [hu', hv']; rfl
    have hsh : SvdShape (rowsOf p d up) (colsOf p d up) d cu cv
        (st.s.setDiags dg (st.s.off.upd st.start 0)) := h.shape.set (by rfl) (by rfl)
    rw [hdata]
    obtain ⟨β, hβ⟩ : ∃ β, β = frob (biD d (dv st.s.diag) (dv st.s.off)) := ⟨_, rfl⟩
    have hβ0 : 0 ≤ β := by rw [hβ]; exact frob_nonneg _
    have hγ := e.gam
    obtain ⟨ε, hεd⟩ : ∃ ε, ε = (2 + 500 * (K : ℝ) ^ 2) * gam R.uw 10 * β := ⟨_, rfl⟩
    have hε : 0 ≤ ε := by rw [hεd]; positivity
    have hfr : frob (biD d (dv st.s.diag) (dv st.s.off) * rotM d st.start (st.start + 1) c' t') = β := by
      rw [hβ]
      exact frob_mul_orth (mul_eq_one_comm.1 (rotM_orth (n := d) (i := st.start) (j := st.start + 1) (by omega)
        (by omega) (by omega) n2)) _
    have step1 := (hf.set dg (st.s.off.upd st.start 0)).rotR
      (X' := biD d (dv st.s.diag) (dv st.s.off) * rotM d st.start (st.start + 1) c' t') e hsh (i := st.start)
      (j := st.start + 1) (by omega) (by omega) (by omega) n2 q3 q4 (fun _ => by
        rw [sub_self, frob_zero, ← hβ]; positivity)
    have step2 := SvdQ.rotL (X' := rotM d st.start (st.start + 1) c (-t) *
        (biD d (dv st.s.diag) (dv st.s.off) * rotM d st.start (st.start + 1) c' t')) e step1 (hsh.rotR _ _ _ _)
      (i := st.start) (j := st.start + 1) (g := ru) (by omega) (by omega) (by omega) n1 q1 q2 (fun _ => by rw [sub_self, frob_zero, hfr]; positivity)
    have hfr2 : frob (rotM d st.start (st.start + 1) c (-t) *
        (biD d (dv st.s.diag) (dv st.s.off) * rotM d st.start (st.start + 1) c' t')) = β := by
      rw [frob_orth_mul (rotM_orth (n := d) (i := st.start) (j := st.start + 1) (by omega)
        (by omega) (by omega) (by linear_combination n1)), hfr]
    rw [show N + (3 + 210 * K ^ 2) = N + 1 + 1 + (1 + 210 * K ^ 2) by omega]
    refine SvdQ.shiftN e (1 + 210 * K ^ 2) step2 fun hv => ?_
    rw [hfr2]
    have hgood : (cu && up || cv && !up) = false ∧ (cv && up || cu && !up) = false ∨ 1 ≤ K ∧
        UptrigGood K (st.s.diag.get st.start).v (st.s.off.get st.start).v (st.s.diag.get (st.start + 1)).v := by
      rcases hval hv (by omega) with ⟨hcu, hcv⟩ | ⟨h1, h2⟩
      · left; simp [hcu, hcv]
      · exact Or.inr ⟨h1, h2 hse⟩
    obtain ⟨b1, b2, b3, b4⟩ := hV hgood β
      (by rw [hβ]; exact abs_diag_le_frob (dv st.s.diag) (dv st.s.off) (by omega))
      (by rw [hβ]; exact abs_off_le_frob (dv st.s.diag) (dv st.s.off) (by omega))
      (by rw [hβ]; exact abs_diag_le_frob (dv st.s.diag) (dv st.s.off) (by omega))
    rw [← hεd] at b1 b2 b3 b4
    have hbud : 5 * ε ≤ (1 + 210 * K ^ 2 : Nat) * svdRotErr R * β := by
      rw [hεd]
      unfold svdRotErr
      push_cast
      have e1 := mul_nonneg hγ hβ0
      have e2 := mul_nonneg (sq_nonneg (K : ℝ)) e1
      linarith
    refine le_trans ?_ hbud
    let d1 : Nat → ℝ := fun j =>
      if j = st.start then c' * dv st.s.diag st.start + t' * dv st.s.off st.start
      else if j = st.start + 1 then c' * dv st.s.diag (st.start + 1) else dv st.s.diag j
    let o1 : Nat → ℝ := fun j =>
      if j = st.start then -t' * dv st.s.diag st.start + c' * dv st.s.off st.start
      else dv st.s.off j
    have hz : ∀ j, j + 1 = st.start → dv st.s.off j = 0 := by
      intro j hj
      have := hg.start0 (by omega)
      rwa [show st.start - 1 = j by omega] at this
    have hz2 : st.start + 2 < d → dv st.s.off (st.start + 1) = 0 := fun h => hg.offz _ (by omega) h
    have m1 := sweep_matrix1 (n := d) (k := st.start) (by omega) (c := c') (s := -t') (y := 0)
      (d := dv st.s.diag) (e := dv st.s.off) (d' := d1) (e' := o1)
      (by intro j hj; rw [hz j hj]; ring) (fun _ => rfl)
      (by intro j h1 h2; simp [d1, h1, h2]) (by simp [d1])
      (by simp [d1])
      (by intro j _ h2; simp [o1, h2])
      (by
        intro j hj
        simp only [o1]
        rw [if_neg (by omega), hz j hj]; ring)
      (by simp [o1])
    rw [neg_neg, biM_zero] at m1
    rw [m1]
    let d2 : Nat → ℝ := fun j =>
      if j = st.start then c * d1 st.start - -t * (t' * dv st.s.diag (st.start + 1))
      else if j = st.start + 1 then -t * o1 st.start + c * d1 (st.start + 1) else d1 j
    let o2 : Nat → ℝ := fun j => if j = st.start then c * o1 st.start - -t * d1 (st.start + 1) else o1 j
    have m2 := block_matrix (n := d) (k := st.start) (by omega) (c := c) (s := -t)
      (v := t' * dv st.s.diag (st.start + 1)) (d := d1) (e := o1) (d' := d2) (e' := o2)
      (by intro j h1 h2; simp [d2, h1, h2]) (by simp [d2]) (by simp [d2]) (by intro j h1; simp [o2, h1]) (by simp [o2])
      (by
        intro hd2
        simp only [o1]
        rw [if_neg (by omega)]
        exact hz2 hd2)
    rw [m2, ← biM_zero (n := d) _ _ (st.start + 1) st.start]
    have v1 : d1 st.start = c' * dv st.s.diag st.start + t' * dv st.s.off st.start := by simp [d1]
    have v2 : d1 (st.start + 1) = c' * dv st.s.diag (st.start + 1) := by simp [d1]
    have v3 : o1 st.start = -t' * dv st.s.diag st.start + c' * dv st.s.off st.start := by simp [o1]
    refine biM_near hε {st.start, st.start + 1} {st.start} Finset.card_le_two (by simp) ?_ ?_ ?_
    · intro j _
      simp only [rotL_diag, rotR_diag, setDiags_diag, hdg, dv_upd, Finset.mem_insert, Finset.mem_singleton]
      by_cases h1 : j = st.start
      · subst h1
        rw [if_neg (by omega), if_pos rfl, if_pos (Or.inl rfl), abs_sub_comm]
        refine le_trans (le_of_eq ?_) b1
        congr 1
        simp only [d2, if_pos rfl, v1]
        simp only [dv]; ring
      · by_cases h2 : j = st.start + 1
        · subst h2
          rw [if_pos rfl, if_pos (Or.inr rfl), abs_sub_comm]
          refine le_trans (le_of_eq ?_) b4
          congr 1
          simp only [d2, if_true, if_neg h1, v2, v3]
          simp only [dv]; ring
        · simp [d2, d1, h1, h2]
    · intro j _
      simp only [rotL_off, rotR_off, setDiags_off, dv_upd, Finset.mem_singleton]
      by_cases h1 : j = st.start
      · subst h1
        rw [if_pos rfl, if_pos rfl, abs_sub_comm]
        refine le_trans (le_of_eq ?_) b3
        congr 1
        simp only [o2, if_pos rfl, v2, v3]
        simp only [dv, Rnd.zero_v]; ring
      · simp [o2, o1, h1]
    · rw [abs_sub_comm]
      refine le_trans (le_of_eq ?_) b2
      congr 1
      rw [v1]
      simp only [dv]; ring
  · intro k hk hkd
    simp only [dv_upd]
    split_ifs with h1
    · rfl
    · exact hg.offz k (by omega) hkd

/-- One iteration of the main loop in floating point. -/
theorem svdStep_rnd {st : SvdState (Rnd R)} {eps : Rnd R} (e : SvdEnv R A G H) (he : EpsOk R eps) {K : Nat}
    (hK : 104 * ((K : ℝ) ^ 2 * gam R.uw 10) ≤ 1)
    (hval : val → 2 ≤ d → (cu = false ∧ cv = false) ∨ (1 ≤ K ∧ SvdBlockGood K st))
    (h : SvdSt (rowsOf p d up) (colsOf p d up) d cu cv st)
    (hf : SvdQ val A up G H N (biD d (dv st.s.diag) (dv st.s.off)) st.s)
    (hg : SvdGoodF d st.s st.start st.end) (hne : st.end ≠ st.start) :
    Succeeds (svdStep up cu cv eps st) fun st' =>
      SvdSt (rowsOf p d up) (colsOf p d up) d cu cv st' ∧
      SvdQ val A up G H (N + (2 * d ^ 2 + 3 * d + 210 * K ^ 2)) (biD d (dv st'.s.diag) (dv st'.s.off)) st'.s ∧
      SvdGoodF d st'.s st'.start st'.end := by
  have hd := h.ltd
  have hlt := h.lt
  have hcount : 2 * d ^ 2 + 3 * d = 2 * d + d * (2 * d + 1) := by ring
  refine wp_svdStep h hne (fun st' => SvdQ val A up G H (N + (2 * d ^ 2 + 3 * d + 210 * K ^ 2))
    (biD d (dv st'.s.diag) (dv st'.s.off)) st'.s ∧ SvdGoodF d st'.s st'.start st'.end)
    (fun hs => ?_) (fun hs => ?_)
  · refine wp_conseq (svdSweep_rnd e h hf hg hs) ?_
    rintro st1 ⟨sh, e1, ok, oz⟩
    refine ⟨sh, e1, wp_conseq (svdDelimit_rnd e he sh ok hd oz) ?_⟩
    rintro q ⟨-, a, b, -⟩
    exact ⟨a.mono e (by rw [hcount]; omega), b⟩
  · refine wp_conseq (svd2x2_rnd e hK hval h hf hg hs) ?_
    rintro st1 ⟨sh, e1, ok, oz⟩
    refine ⟨sh, e1, wp_conseq (svdDelimit_rnd e he sh ok (by omega) oz) ?_⟩
    rintro q ⟨-, a, b, -⟩
    exact ⟨a.mono e (by rw [hcount]; omega), b⟩

end

end LinfaLinalg
