import Verif.Proofs.RoundedSvdDelimit

/-! # Rounding errors of `svd`: the sweep -/

set_option linter.unusedSimpArgs false
set_option linter.unusedSectionVars false

namespace LinfaLinalg

open Matrix

variable {R : StdModel}

/-- The off-diagonal after one step of the sweep. -/
theorem sweep_off_dv (off : Arr1 (Rnd R)) (start n k : Nat) (a b c : Rnd R) (j : Nat) :
    dv ((if k ≠ n - 1 then ((if start < k then off.upd (k - 1) a else off).upd k b).upd (k + 1) c
      else (if start < k then off.upd (k - 1) a else off).upd k b) : Arr1 (Rnd R)) j =
    if j = k + 1 ∧ k ≠ n - 1 then c.v else if j = k then b.v
    else if j + 1 = k ∧ start < k then a.v else dv off j := by
  by_cases h1 : k ≠ n - 1
  · rw [if_pos h1]
    simp only [dv_upd]
    by_cases h2 : j = k + 1
    · rw [if_pos h2, if_pos ⟨h2, h1⟩]
    · by_cases h3 : j = k
      · simp [h3]
      · by_cases h4 : start < k
        · simp only [h2, h3, if_false, h4, if_true, dv_upd, false_and, and_true]
          by_cases h5 : j + 1 = k
          · rw [if_pos (by omega), if_pos h5]
          · rw [if_neg (by omega), if_neg h5]
        · simp [h2, h3, h4]
  · rw [if_neg h1]
    simp only [dv_upd, h1]
    by_cases h3 : j = k
    · simp [h3]
    · by_cases h4 : start < k
      · simp only [h3, if_false, h4, if_true, dv_upd, and_false, and_true]
        by_cases h5 : j + 1 = k
        · rw [if_pos (by omega), if_pos h5]
        · rw [if_neg (by omega), if_neg h5]
      · simp [h3, h4]

section
variable {val : Prop} {p d N : Nat} {A : Matrix (Fin p) (Fin d) ℝ} {up cu cv : Bool} {G H : ℝ}
  {s : SvdData (Rnd R)}

/-- Invariant of the sweep. -/
structure SvdSweepInvF (val : Prop) {p d : Nat} (A : Matrix (Fin p) (Fin d) ℝ) (up : Bool) (G H : ℝ) (N : Nat)
    (s : SvdData (Rnd R)) (start n k : Nat) (w : SvdSweep (Rnd R)) : Prop where
  fac : SvdQ val A up G H (N + 2 * (k - start)) (biM d (dv w.s.diag) (dv w.s.off) (k - 1) (k + 1)
    (if start < k then w.y.v else 0)) w.s
  x : start < k → w.x.v = dv w.s.off (k - 1)
  off : ∀ j, j < start ∨ n ≤ j → dv w.s.off j = dv s.off j
  rest : ∀ j, k < j → dv w.s.off j = dv s.off j
  last : k = n → w.y.v = 0

/-- The diagonal after the first rotation. -/
noncomputable def sweepD (k : Nat) (w : SvdSweep (Rnd R)) (r1 : GivensRotation (Rnd R)) : Nat → ℝ := fun j =>
  if j = k then (w.s.diag.get k * r1.c + -r1.s * w.s.off.get k).v
  else if j = k + 1 then (- -r1.s * 0 + w.s.diag.get (k + 1) * r1.c).v else dv w.s.diag j

/-- The off-diagonal after the first rotation. -/
noncomputable def sweepE (start k : Nat) (w : SvdSweep (Rnd R)) (r1 : GivensRotation (Rnd R)) (n1 : Rnd R) : Nat → ℝ := fun j =>
  if j + 1 = k then (if start < k then n1.v else dv w.s.off j)
  else if j = k then (- -r1.s * w.s.diag.get k + w.s.off.get k * r1.c).v else dv w.s.off j

theorem SvdSweepInvF.first {start n k : Nat} {w : SvdSweep (Rnd R)} (e : SvdEnv R A G H)
    (h : SvdSweepInvF val A up G H N s start n k w)
    (hs : SvdShape (rowsOf p d up) (colsOf p d up) d cu cv w.s)
    (hk1 : start ≤ k) (hk2 : k < n) (hn : n < d) (hoff0 : start ≠ 0 → dv s.off (start - 1) = 0)
    {r1 : GivensRotation (Rnd R)} {n1 : Rnd R} (e1 : GivensRotation.cancelY w.x w.y = some (r1, n1))
    (dg o : Arr1 (Rnd R)) (hdg : dg.len = w.s.diag.len) (ho : o.len = w.s.off.len) :
    SvdQ val A up G H (N + 2 * (k - start) + 1)
      (biM d (sweepD k w r1) (sweepE start k w r1 n1) (k + 1) k (sweepV k w r1).2.v)
      ((w.s.setDiags dg o).rotR up r1.inverse k (k + 1)) := by
  obtain ⟨c, t, ρ, hn1⟩ := cancelY_rnd e1
  have hg := e.gam
  have hc3 : Rel R 3 r1.c.v c := hn1.hc.mono (by norm_num)
  have ht3 : Rel R 3 r1.s.v t := hn1.hs.mono (by norm_num)
  have hstart0 : ∀ j, j + 1 = k → ¬ start < k → dv w.s.off j = 0 := by
    intro j h1 h2
    rw [h.off j (Or.inl (by omega))]
    have := hoff0 (by omega)
    rwa [show start - 1 = j by omega] at this
  refine (h.fac.set _ _).rotR e (hs.set hdg ho) (by omega) (by omega) (by omega) (t := -t)
    (by linear_combination hn1.one) hc3 ht3.neg ?_
  intro _
  obtain ⟨y, hy⟩ : ∃ y, y = if start < k then w.y.v else 0 := ⟨_, rfl⟩
  rw [← hy]
  obtain ⟨β, hβ⟩ : ∃ β, β = frob (biM d (dv w.s.diag) (dv w.s.off) (k - 1) (k + 1) y) := ⟨_, rfl⟩
  rw [← hβ]
  have hβ0 : 0 ≤ β := by rw [hβ]; exact frob_nonneg _
  have hε : 0 ≤ 2 * gam R.uw 10 * β := by positivity
  have bd : ∀ j, j < d → |dv w.s.diag j| ≤ β := fun j hj => by
    rw [hβ]; exact abs_biM_diag_le _ _ _ hj (fun h => by omega)
  have bo : ∀ j, j + 1 < d → |dv w.s.off j| ≤ β := fun j hj => by
    rw [hβ]; exact abs_biM_off_le _ _ _ hj (fun h1 h2 => by rw [hy, if_neg (by omega)])
  have by' : |y| ≤ β := by
    by_cases h1 : start < k
    · rw [hβ]; exact abs_biM_le _ _ _ (by omega) (by omega) (by omega) (fun h => by omega)
    · rw [hy, if_neg h1, abs_zero]; exact hβ0
  have z : |(0 : ℝ)| ≤ β := by rw [abs_zero]; exact hβ0
  have hone' : c * c + -t * -t = 1 := by linear_combination hn1.one
  refine sweep1_near (by omega) hε ?_ ?_ ?_ ?_ ?_ ?_ ?_ ?_ ?_
  · intro j hj
    by_cases h1 : start < k
    · rw [hy, if_pos h1]
      have := h.x h1
      rw [show k - 1 = j by omega] at this
      rw [← this]; exact hn1.ry
    · rw [hy, if_neg h1, hstart0 j hj h1]; ring
  · intro h0; rw [hy, if_neg (by omega)]
  · intro j h1 h2; simp only [sweepD, if_neg h1, if_neg h2]
  · simp only [sweepD, if_true, Rnd.add_v, Rnd.mul_v, Rnd.neg_v]
    have := rot_lin_le e.hu hone' hc3 ht3.neg (bd k (by omega)) (bo k (by omega))
    rwa [show dv w.s.diag k * c + -t * dv w.s.off k = c * dv w.s.diag k - t * dv w.s.off k by ring] at this
  · simp only [sweepD, if_neg (show ¬ k + 1 = k by omega), if_true, Rnd.add_v, Rnd.mul_v, Rnd.neg_v, neg_neg,
      Rnd.zero_v]
    have := rot_lin_le e.hu hn1.one hc3 ht3 (bd (k + 1) (by omega)) z
    rwa [show dv w.s.diag (k + 1) * c + t * 0 = c * dv w.s.diag (k + 1) by ring, add_comm] at this
  · intro j h1 h2; simp only [sweepE, if_neg h1, if_neg h2]
  · intro j hj
    simp only [sweepE, if_pos hj]
    by_cases h1 : start < k
    · rw [if_pos h1]
      have hx := h.x h1
      rw [show k - 1 = j by omega] at hx
      have hw : y = w.y.v := by rw [hy, if_pos h1]
      rw [← hx, hw, hn1.rx]
      refine rot_norm_le e.hu hn1.hr hn1.pos hn1.sq ?_ (by rw [← hw]; exact by')
      rw [hx]; exact bo j (by omega)
    · rw [if_neg h1, hstart0 j hj h1, hy, if_neg h1]; simpa using hε
  · simp only [sweepE, if_neg (show ¬ k + 1 = k by omega), if_true, Rnd.add_v, Rnd.mul_v, Rnd.neg_v, neg_neg]
    have := rot_lin_le e.hu hn1.one hc3 ht3 (bo k (by omega)) (bd k (by omega))
    rwa [show dv w.s.off k * c + t * dv w.s.diag k = t * dv w.s.diag k + c * dv w.s.off k by ring, add_comm] at this
  · simp only [sweepV, Rnd.add_v, Rnd.mul_v, Rnd.neg_v, Rnd.zero_v]
    have := rot_lin_le e.hu hone' hc3 ht3.neg z (bd (k + 1) (by omega))
    rwa [zero_mul c, zero_add (-t * dv w.s.diag (k + 1))] at this

theorem SvdSweepInvF.next {start n k : Nat} {w : SvdSweep (Rnd R)} (e : SvdEnv R A G H)
    (h : SvdSweepInvF val A up G H N s start n k w)
    (hs : SvdShape (rowsOf p d up) (colsOf p d up) d cu cv w.s)
    (hk1 : start ≤ k) (hk2 : k < n) (hn : n < d) (hoff0 : start ≠ 0 → dv s.off (start - 1) = 0)
    (hoffn : n + 1 < d → dv s.off n = 0) {r1 r2 : GivensRotation (Rnd R)} {n1 n2 : Rnd R}
    (e1 : GivensRotation.cancelY w.x w.y = some (r1, n1))
    (e2 : GivensRotation.cancelY (sweepV k w r1).1 (sweepV k w r1).2 = some (r2, n2)) :
    SvdSweepInvF val A up G H N s start n (k + 1) (svdSweepNext up start n k w r1 n1 r2 n2) := by
  have hm12 : k + 2 < d → (sweepM12 n k w.s).v = dv w.s.off (k + 1) := by
    intro hk
    unfold sweepM12
    split_ifs with h1
    · rw [h.rest (k + 1) (by omega), show k + 1 = n by omega, hoffn (by omega)]; rfl
    · rfl
  have hlast : k = n - 1 → (sweepM12 n k w.s).v = 0 := fun h1 => by rw [sweepM12, if_pos h1]; rfl
  have hl : ∀ b c : Rnd R, ((if k ≠ n - 1 then ((if start < k then w.s.off.upd (k - 1) n1 else w.s.off).upd k b).upd (k + 1) c
      else (if start < k then w.s.off.upd (k - 1) n1 else w.s.off).upd k b) : Arr1 (Rnd R)).len = w.s.off.len := by
    intro b c
    split_ifs <;> rfl
  obtain ⟨c, t, ρ, hn2⟩ := cancelY_rnd e2
  have hg := e.gam
  have hc3 : Rel R 3 r2.c.v c := hn2.hc.mono (by norm_num)
  have ht3 : Rel R 3 r2.s.v t := hn2.hs.mono (by norm_num)
  have hone' : c * c + -t * -t = 1 := by linear_combination hn2.one
  refine ⟨?_, ?_, ?_, ?_, ?_⟩
  · rw [if_pos (by omega), Nat.add_sub_cancel]
    simp only [svdSweepNext, rotL_diag, rotR_diag, rotL_off, rotR_off, setDiags_diag, setDiags_off]
    rw [show N + 2 * (k + 1 - start) = N + 2 * (k - start) + 1 + 1 by omega]
    refine SvdQ.rotL e (h.first e hs hk1 hk2 hn hoff0 e1 _ _ (by rfl) (hl _ _))
      (SvdShape.rotR (hs.set (by rfl) (hl _ _)) _ _ _ _) (by omega) (by omega) (by omega) (t := -t)
      hone' hc3 ht3.neg ?_
    intro _
    rw [neg_neg]
    obtain ⟨D, hD⟩ : ∃ D, D = sweepD k w r1 := ⟨_, rfl⟩
    obtain ⟨F, hF⟩ : ∃ F, F = sweepE start k w r1 n1 := ⟨_, rfl⟩
    have hDk : D k = (sweepV k w r1).1.v := by rw [hD]; simp only [sweepD, if_true, sweepV]
    have hDk1 : D (k + 1) = (- -r1.s * 0 + w.s.diag.get (k + 1) * r1.c).v := by
      rw [hD]; simp only [sweepD, if_neg (show ¬ k + 1 = k by omega), if_true]
    have hFk : F k = (- -r1.s * w.s.diag.get k + w.s.off.get k * r1.c).v := by
      rw [hF]; simp only [sweepE, if_neg (show ¬ k + 1 = k by omega), if_true]
    have hFk1 : F (k + 1) = dv w.s.off (k + 1) := by
      rw [hF]; simp only [sweepE]; rw [if_neg (by omega), if_neg (by omega)]
    rw [← hD, ← hF]
    obtain ⟨v, hv⟩ : ∃ v, v = (sweepV k w r1).2.v := ⟨_, rfl⟩
    rw [← hv]
    obtain ⟨β, hβ⟩ : ∃ β, β = frob (biM d D F (k + 1) k v) := ⟨_, rfl⟩
    rw [← hβ]
    have hβ0 : 0 ≤ β := by rw [hβ]; exact frob_nonneg _
    have hε : 0 ≤ 2 * gam R.uw 10 * β := by positivity
    have bd : ∀ j, j < d → |D j| ≤ β := fun j hj => by
      rw [hβ]; exact abs_biM_diag_le _ _ _ hj (fun h => by omega)
    have bo : ∀ j, j + 1 < d → |F j| ≤ β := fun j hj => by
      rw [hβ]; exact abs_biM_off_le _ _ _ hj (fun h1 h2 => by omega)
    have bv : |v| ≤ β := by
      rw [hβ]; exact abs_biM_le _ _ _ (by omega) (by omega) (by omega) (fun h => by omega)
    have z : |(0 : ℝ)| ≤ β := by rw [abs_zero]; exact hβ0
    have hx1 := hn2.rx
    have hx2 := hn2.ry
    have hx3 := hn2.sq
    rw [← hDk, ← hv] at hx1 hx2 hx3
    refine sweep2_near (by omega) hε hx2 ?_ ?_ ?_ ?_ ?_ ?_ ?_
    · intro j h1 h2
      simp only [dv_upd]
      rw [if_neg h2, if_neg h1, hD]; simp only [sweepD, if_neg h1, if_neg h2]
    · simp only [dv_upd]
      rw [if_neg (by omega), if_pos trivial, hx1]
      exact rot_norm_le e.hu hn2.hr hn2.pos hx3 (bd k (by omega)) bv
    · simp only [dv_upd]
      rw [if_pos trivial, Rnd.add_v, Rnd.mul_v, Rnd.mul_v (- -r1.s * 0 + _), ← hDk1, ← hFk, Rnd.neg_v, Rnd.neg_v, neg_neg]
      have := rot_lin_le e.hu hn2.one hc3 ht3 (bd (k + 1) (by omega)) (bo k (by omega))
      rwa [add_comm, add_comm (D (k + 1) * c), mul_comm (D (k + 1)) c] at this
    · intro j h1 h2
      simp only [sweep_off_dv]
      rw [if_neg (by omega), if_neg h1, hF]
      simp only [sweepE]
      by_cases h3 : j + 1 = k
      · by_cases h4 : start < k
        · rw [if_pos ⟨h3, h4⟩, if_pos h3, if_pos h4]
        · rw [if_neg (by omega), if_pos h3, if_neg h4]
      · rw [if_neg (by omega), if_neg h3, if_neg h1]
    · simp only [sweep_off_dv]
      rw [if_neg (by omega), if_pos trivial, Rnd.add_v, Rnd.mul_v, Rnd.mul_v (-r2.s), ← hDk1, ← hFk, Rnd.neg_v]
      have := rot_lin_le e.hu hone' hc3 ht3.neg (bo k (by omega)) (bd (k + 1) (by omega))
      rwa [show F k * c + -t * D (k + 1) = c * F k - t * D (k + 1) by ring] at this
    · intro hk
      simp only [sweep_off_dv]
      rw [if_neg (c := k + 1 = k) (by omega), if_neg (c := k + 1 + 1 = k ∧ _) (by omega)]
      by_cases h1 : k = n - 1
      · rw [if_neg (by omega), hFk1, ← hm12 hk, hlast h1]; simpa using hε
      · rw [if_pos ⟨trivial, h1⟩]
        simp only [Rnd.add_v, Rnd.mul_v, Rnd.neg_v, neg_neg, Rnd.zero_v]
        rw [hm12 hk, ← hFk1]
        have := rot_lin_le e.hu hn2.one hc3 ht3 (bo (k + 1) (by omega)) z
        rwa [show F (k + 1) * c + t * 0 = c * F (k + 1) by ring, add_comm] at this
    · intro hk
      simp only [Rnd.add_v, Rnd.mul_v, Rnd.neg_v, Rnd.zero_v]
      rw [hm12 hk, ← hFk1]
      have := rot_lin_le e.hu hone' hc3 ht3.neg z (bo (k + 1) (by omega))
      rwa [zero_mul c, zero_add (-t * F (k + 1))] at this
  · intro _
    simp only [svdSweepNext, rotL_off, rotR_off, setDiags_off, sweep_off_dv, Nat.add_sub_cancel]
    rw [if_neg (by omega), if_pos trivial]
  · intro j hj
    simp only [svdSweepNext, rotL_off, rotR_off, setDiags_off, sweep_off_dv]
    rw [if_neg (by omega), if_neg (by omega), if_neg (by omega)]
    exact h.off j hj
  · intro j hj
    simp only [svdSweepNext, rotL_off, rotR_off, setDiags_off, sweep_off_dv]
    rw [if_neg (by omega), if_neg (by omega), if_neg (by omega)]
    exact h.rest j (by omega)
  · intro hk
    simp only [svdSweepNext, Rnd.add_v, Rnd.mul_v, Rnd.zero_v]
    rw [hlast (by omega), zero_mul, mul_zero, R.rnd_zero, add_zero, R.rnd_zero]

theorem SvdSweepInvF.next' {start n k : Nat} {w : SvdSweep (Rnd R)} (e : SvdEnv R A G H)
    (h : SvdSweepInvF val A up G H N s start n k w)
    (hs : SvdShape (rowsOf p d up) (colsOf p d up) d cu cv w.s)
    (hk1 : start ≤ k) (hk2 : k < n) (hn : n < d) (hoff0 : start ≠ 0 → dv s.off (start - 1) = 0)
    {r1 : GivensRotation (Rnd R)} {n1 : Rnd R}
    (e1 : GivensRotation.cancelY w.x w.y = some (r1, n1))
    (e2 : GivensRotation.cancelY (sweepV k w r1).1 (sweepV k w r1).2 = none) :
    SvdSweepInvF val A up G H N s start n (k + 1) (svdSweepNext' up start n k w r1 n1) := by
  have hl : ∀ b c : Rnd R, ((if k ≠ n - 1 then ((if start < k then w.s.off.upd (k - 1) n1 else w.s.off).upd k b).upd (k + 1) c
      else (if start < k then w.s.off.upd (k - 1) n1 else w.s.off).upd k b) : Arr1 (Rnd R)).len = w.s.off.len := by
    intro b c
    split_ifs <;> rfl
  refine ⟨?_, ?_, ?_, ?_, ?_⟩
  · rw [if_pos (by omega), Nat.add_sub_cancel]
    simp only [svdSweepNext', rotR_diag, rotR_off, setDiags_diag, setDiags_off, Rnd.zero_v]
    have h1 := h.first e hs hk1 hk2 hn hoff0 e1 ((w.s.diag.upd k (w.s.diag.get k * r1.c + -r1.s * w.s.off.get k)).upd
      (k + 1) (- -r1.s * 0 + w.s.diag.get (k + 1) * r1.c)) _ (by rfl)
      (hl (- -r1.s * w.s.diag.get k + w.s.off.get k * r1.c) (sweepM12 n k w.s))
    rw [cancelY_rnd_none e2, biM_zero] at h1
    rw [biM_zero]
    have hd : dv ((w.s.diag.upd k (w.s.diag.get k * r1.c + -r1.s * w.s.off.get k)).upd
      (k + 1) (- -r1.s * 0 + w.s.diag.get (k + 1) * r1.c)) = sweepD k w r1 := by
      funext j
      simp only [dv_upd, sweepD]
      by_cases c1 : j = k + 1
      · rw [if_pos c1, if_neg (by omega), if_pos c1]
      · rw [if_neg c1, if_neg c1]
    have hE : dv ((if k ≠ n - 1 then ((if start < k then w.s.off.upd (k - 1) n1 else w.s.off).upd k
        (- -r1.s * w.s.diag.get k + w.s.off.get k * r1.c)).upd (k + 1) (sweepM12 n k w.s)
      else (if start < k then w.s.off.upd (k - 1) n1 else w.s.off).upd k
        (- -r1.s * w.s.diag.get k + w.s.off.get k * r1.c)) : Arr1 (Rnd R)) = sweepE start k w r1 n1 := by
      funext j
      rw [sweep_off_dv]
      simp only [sweepE]
      by_cases c1 : j = k + 1 ∧ k ≠ n - 1
      · rw [if_pos c1, if_neg (by omega), if_neg (by omega), sweepM12, if_neg c1.2, c1.1]; rfl
      · rw [if_neg c1]
        by_cases c2 : j = k
        · rw [if_pos c2, if_neg (by omega), if_pos c2]
        · rw [if_neg c2]
          by_cases c3 : j + 1 = k
          · by_cases c4 : start < k
            · rw [if_pos ⟨c3, c4⟩, if_pos c3, if_pos c4]
            · rw [if_neg (by omega), if_pos c3, if_neg c4]
          · rw [if_neg (by omega), if_neg c3, if_neg c2]
    rw [hd, hE]
    exact h1.mono e (by omega)
  · intro _
    simp only [svdSweepNext', rotL_off, rotR_off, setDiags_off, sweep_off_dv, Nat.add_sub_cancel]
    rw [if_neg (by omega), if_pos trivial]
  · intro j hj
    simp only [svdSweepNext', rotL_off, rotR_off, setDiags_off, sweep_off_dv]
    rw [if_neg (by omega), if_neg (by omega), if_neg (by omega)]
    exact h.off j hj
  · intro j hj
    simp only [svdSweepNext', rotL_off, rotR_off, setDiags_off, sweep_off_dv]
    rw [if_neg (by omega), if_neg (by omega), if_neg (by omega)]
    exact h.rest j (by omega)
  · intro hk; rfl

/-- The sweep in floating point. -/
theorem svdSweep_rnd {st : SvdState (Rnd R)} (e : SvdEnv R A G H)
    (h : SvdSt (rowsOf p d up) (colsOf p d up) d cu cv st)
    (hf : SvdQ val A up G H N (biD d (dv st.s.diag) (dv st.s.off)) st.s)
    (hg : SvdGoodF d st.s st.start st.end) (hse : st.start + 1 < st.end) :
    Succeeds (svdSweep up st) fun st' => SvdShape (rowsOf p d up) (colsOf p d up) d cu cv st'.s ∧
      st'.end = st.end ∧ SvdQ val A up G H (N + 2 * d) (biD d (dv st'.s.diag) (dv st'.s.off)) st'.s ∧
      (∀ k, st.end ≤ k → k + 1 < d → dv st'.s.off k = 0) := by
  have hend := h.ltd
  refine wp_conseq (wp_svdSweep h.shape hse h.ltd
    (SvdSweepInvF val A up G H N st.s st.start st.end)
    (fun s' => SvdQ val A up G H (N + 2 * d) (biD d (dv s'.diag) (dv s'.off)) s' ∧
      (∀ j, j < st.start ∨ st.end ≤ j → dv s'.off j = dv st.s.off j)) ?_ ?_ ?_ ?_ ?_) ?_
  · refine ⟨?_, fun h => absurd h (lt_irrefl _), fun _ _ => rfl, fun _ _ => rfl, fun h => by omega⟩
    rw [if_neg (lt_irrefl _), biM_zero, Nat.sub_self]
    exact hf
  · rintro k w hk1 hk2 hs hI hx
    refine ⟨?_, hI.off⟩
    have := hI.fac
    rw [cancelY_rnd_none hx, ite_self, biM_zero] at this
    exact this.mono e (by omega)
  · rintro k w r1 n1 r2 n2 hk1 hk2 hs hI e1 e2
    exact hI.next e hs hk1 hk2 hend hg.start0 (fun hd => hg.offz _ le_rfl hd) e1 e2
  · rintro k w r1 n1 hk1 hk2 hs hI e1 e2
    exact hI.next' e hs hk1 hk2 hend hg.start0 e1 e2
  · rintro w hs hI
    refine ⟨?_, hI.off⟩
    have := hI.fac
    rw [hI.last rfl, ite_self, biM_zero] at this
    exact this.mono e (by omega)
  · rintro st' ⟨hs, -, he, hfac, ho⟩
    refine ⟨hs, he, hfac, ?_⟩
    intro k hk hkd
    rw [ho k (Or.inr hk)]; exact hg.offz k hk hkd

end

end LinfaLinalg
