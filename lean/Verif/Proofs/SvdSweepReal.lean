import Verif.Proofs.SvdReal

/-! # `svd` over the reals: the sweep and the `2 × 2` block -/

namespace LinfaLinalg

open Matrix

/-- The off-diagonal after one step of the sweep. -/
theorem sweep_off_get (off : Arr1 ℝ) (start n k : Nat) (a b c : ℝ) (j : Nat) :
    ((if k ≠ n - 1 then ((if start < k then off.upd (k - 1) a else off).upd k b).upd (k + 1) c
      else (if start < k then off.upd (k - 1) a else off).upd k b) : Arr1 ℝ).get j =
    if j = k + 1 ∧ k ≠ n - 1 then c else if j = k then b
    else if j + 1 = k ∧ start < k then a else off.get j := by
  by_cases h1 : k ≠ n - 1
  · rw [if_pos h1]
    simp only [Arr1.upd_get]
    by_cases h2 : j = k + 1
    · rw [if_pos h2, if_pos ⟨h2, h1⟩]
    · by_cases h3 : j = k
      · simp [h3]
      · by_cases h4 : start < k
        · simp only [h2, h3, if_false, h4, if_true, Arr1.upd_get, false_and, and_true]
          by_cases h5 : j + 1 = k
          · rw [if_pos (by omega), if_pos h5]
          · rw [if_neg (by omega), if_neg h5]
        · simp [h2, h3, h4]
  · rw [if_neg h1]
    simp only [Arr1.upd_get, h1]
    by_cases h3 : j = k
    · simp [h3]
    · by_cases h4 : start < k
      · simp only [h3, if_false, h4, if_true, Arr1.upd_get, and_false, and_true]
        by_cases h5 : j + 1 = k
        · rw [if_pos (by omega), if_pos h5]
        · rw [if_neg (by omega), if_neg h5]
      · simp [h3, h4]

/-- Invariant of the sweep. -/
structure SvdSweepInv {p d : Nat} (X0 : Matrix (Fin p) (Fin d) ℝ) (up : Bool) (β : ℝ)
    (s : SvdData ℝ) (start n k : Nat) (w : SvdSweep ℝ) : Prop where
  fac : SvdFac X0 up β (biM d w.s.diag.get w.s.off.get (k - 1) (k + 1)
    (if start < k then w.y else 0)) w.s
  x : start < k → w.x = w.s.off.get (k - 1)
  pos : ∀ j, start ≤ j → j ≤ n → 0 < w.s.diag.get j
  diag : ∀ j, j < start ∨ n < j → w.s.diag.get j = s.diag.get j
  off : ∀ j, j < start ∨ n ≤ j → w.s.off.get j = s.off.get j
  rest : ∀ j, k < j → w.s.off.get j = s.off.get j
  last : k = n → w.y = 0

theorem SvdSweepInv.next {p d : Nat} {X0 : Matrix (Fin p) (Fin d) ℝ} {up cu cv : Bool} {β : ℝ}
    {s : SvdData ℝ} {start n k : Nat} {w : SvdSweep ℝ} (h : SvdSweepInv X0 up β s start n k w)
    (hs : SvdShape (rowsOf p d up) (colsOf p d up) d cu cv w.s)
    (hk1 : start ≤ k) (hk2 : k < n) (hn : n < d)
    (hoff0 : start ≠ 0 → s.off.get (start - 1) = 0) (hoffn : n + 1 < d → s.off.get n = 0)
    {r1 r2 : GivensRotation ℝ} {n1 n2 : ℝ} (e1 : GivensRotation.cancelY w.x w.y = some (r1, n1))
    (e2 : GivensRotation.cancelY (sweepV k w r1).1 (sweepV k w r1).2 = some (r2, n2)) :
    SvdSweepInv X0 up β s start n (k + 1) (svdSweepNext up start n k w r1 n1 r2 n2) := by
  obtain ⟨-, a1, a2, a3, a4, -⟩ := cancelY_real e1
  obtain ⟨-, b1, b2, b3, b4, -⟩ := cancelY_real e2
  obtain ⟨b5, b6⟩ := cancelY_real' e2
  simp only [sweepV] at b2 b3 b5 b6
  have hm12 : k + 2 < d → sweepM12 n k w.s = w.s.off.get (k + 1) := by
    intro hk
    unfold sweepM12
    split_ifs with h1
    · rw [h.rest (k + 1) (by omega), show k + 1 = n by omega, hoffn (by omega)]
    · rfl
  have hlast : k = n - 1 → sweepM12 n k w.s = 0 := fun h1 => by rw [sweepM12, if_pos h1]
  -- the intermediate matrix
  let d1 : Nat → ℝ := fun j => if j = k then r1.c * w.s.diag.get k - r1.s * w.s.off.get k
    else if j = k + 1 then r1.c * w.s.diag.get (k + 1) else w.s.diag.get j
  let o1 : Nat → ℝ := fun j => if j + 1 = k then (if start < k then n1 else w.s.off.get j)
    else if j = k then r1.s * w.s.diag.get k + r1.c * w.s.off.get k else w.s.off.get j
  have hstart0 : ∀ j, j + 1 = k → ¬ start < k → w.s.off.get j = 0 := by
    intro j h1 h2
    rw [h.off j (Or.inl (by omega))]
    have := hoff0 (by omega)
    rwa [show start - 1 = j by omega] at this
  have m1 := sweep_matrix1 (n := d) (k := k) (by omega) (c := r1.c) (s := r1.s)
    (y := if start < k then w.y else 0) (d := w.s.diag.get) (e := w.s.off.get) (d' := d1) (e' := o1)
    (by
      intro j hj
      by_cases h1 : start < k
      · rw [if_pos h1]
        have := h.x h1
        rw [show k - 1 = j by omega] at this
        rw [← this]; exact a3
      · rw [if_neg h1, hstart0 j hj h1]; ring)
    (by intro h0; rw [if_neg (by omega)])
    (by intro j h1 h2; simp [d1, h1, h2])
    (by simp [d1])
    (by simp [d1])
    (by intro j h1 h2; simp [o1, h1, h2])
    (by
      intro j hj
      simp only [o1, hj, if_true]
      by_cases h1 : start < k
      · rw [if_pos h1, if_pos h1]
        have := h.x h1
        rw [show k - 1 = j by omega] at this
        rw [← this]; exact a2.symm
      · rw [if_neg h1, if_neg h1, hstart0 j hj h1]; ring)
    (by simp [o1])
  have m2 := sweep_matrix2 (n := d) (k := k) (by omega) (c := r2.c) (s := r2.s)
    (v := -r1.s * w.s.diag.get (k + 1)) (d := d1) (e := o1)
    (d' := (svdSweepNext up start n k w r1 n1 r2 n2).s.diag.get)
    (e' := (svdSweepNext up start n k w r1 n1 r2 n2).s.off.get)
    (y' := (svdSweepNext up start n k w r1 n1 r2 n2).y)
    (by simp only [d1, if_true]; linear_combination b3)
    (by
      intro j h1 h2
      simp only [svdSweepNext, rotL_diag, rotR_diag, setDiags_diag, Arr1.upd_get, d1]
      rw [if_neg h2, if_neg h1, if_neg h1, if_neg h2])
    (by
      simp only [svdSweepNext, rotL_diag, rotR_diag, setDiags_diag, Arr1.upd_get, d1]
      rw [if_neg (by omega), if_pos trivial, if_pos trivial, ← b2]; ring)
    (by
      simp only [svdSweepNext, rotL_diag, rotR_diag, setDiags_diag, Arr1.upd_get, d1, o1]
      rw [if_pos trivial, if_neg (by omega), if_pos trivial, if_neg (by omega), if_pos trivial]; ring)
    (by
      intro j h1 h2
      simp only [svdSweepNext, rotL_off, rotR_off, setDiags_off, sweep_off_get, o1]
      rw [if_neg (by omega), if_neg h1]
      by_cases h3 : j + 1 = k
      · by_cases h4 : start < k
        · rw [if_pos ⟨h3, h4⟩, if_pos h3, if_pos h4]
        · rw [if_neg (by omega), if_pos h3, if_neg h4]
      · rw [if_neg (by omega), if_neg h3, if_neg h1])
    (by
      simp only [svdSweepNext, rotL_off, rotR_off, setDiags_off, sweep_off_get, o1, d1]
      rw [if_neg (by omega), if_pos trivial, if_neg (by omega), if_pos trivial, if_neg (by omega),
        if_pos trivial]
      ring)
    (by
      intro hk
      simp only [svdSweepNext, rotL_off, rotR_off, setDiags_off, sweep_off_get, o1]
      rw [if_neg (c := k + 1 + 1 = k) (by omega), if_neg (c := k + 1 = k) (by omega),
        if_neg (c := k + 1 = k) (by omega), if_neg (c := k + 1 + 1 = k ∧ _) (by omega)]
      by_cases h1 : k = n - 1
      · rw [if_neg (by omega), ← hm12 hk, hlast h1]; ring
      · rw [if_pos ⟨trivial, h1⟩, hm12 hk]; ring)
    (by
      intro hk
      simp only [svdSweepNext, o1]
      rw [if_neg (by omega), if_neg (by omega), hm12 hk]; ring)
  refine ⟨?_, ?_, ?_, ?_, ?_, ?_, ?_⟩
  · rw [if_pos (by omega), Nat.add_sub_cancel]
    simp only [svdSweepNext] at m2 ⊢
    simp only [rotL_diag, rotR_diag, rotL_off, rotR_off, setDiags_diag, setDiags_off] at m2 ⊢
    have hl : ∀ b c : ℝ, ((if k ≠ n - 1 then ((if start < k then w.s.off.upd (k - 1) n1 else w.s.off).upd k b).upd (k + 1) c
      else (if start < k then w.s.off.upd (k - 1) n1 else w.s.off).upd k b) : Arr1 ℝ).len = w.s.off.len := by
      intro b c
      split_ifs <;> rfl
    refine SvdFac.rotL (B := biM d d1 o1 (k + 1) k (-r1.s * w.s.diag.get (k + 1)))
      (cu := cu) (cv := cv) ?_ (SvdShape.rotR (hs.set (by rfl) (hl _ _)) _ _ _ _) (by omega)
      (by omega) (by omega) ?_ ?_
    · refine SvdFac.rotR (cu := cu) (cv := cv) (h.fac.set _ _) (hs.set (by rfl) (hl _ _)) (by omega)
        (by omega) (by omega) ?_ ?_
      · simp only [GivensRotation.inverse]; linear_combination a1
      · simp only [GivensRotation.inverse]; exact m1
    · simp only [GivensRotation.inverse]; linear_combination b1
    · simp only [GivensRotation.inverse]
      have ht : (rotM d k (k + 1) r2.c (-r2.s))ᵀ = rotM d k (k + 1) r2.c r2.s := by
        rw [rotM_transpose _ _ _ (by omega), neg_neg]
      rw [ht]
      exact m2
  · intro _
    simp only [svdSweepNext, rotL_off, rotR_off, setDiags_off, sweep_off_get, Nat.add_sub_cancel]
    rw [if_neg (by omega), if_pos trivial]
  · intro j h1 h2
    simp only [svdSweepNext, rotL_diag, rotR_diag, setDiags_diag, Arr1.upd_get]
    by_cases h3 : j = k + 1
    · rw [if_pos h3]
      have hp1 := h.pos k hk1 hk2.le
      have hp2 := h.pos (k + 1) (by omega) (by omega)
      have hdet : n2 * (- -r2.s * (- -r1.s * w.s.diag.get k + w.s.off.get k * r1.c) +
          (- -r1.s * 0 + w.s.diag.get (k + 1) * r1.c) * r2.c) =
          w.s.diag.get k * w.s.diag.get (k + 1) := by
        linear_combination (r1.s * w.s.diag.get k + r1.c * w.s.off.get k) * b6 -
          (w.s.diag.get (k + 1) * r1.c) * b5 + w.s.diag.get k * w.s.diag.get (k + 1) * a1
      have : 0 < w.s.diag.get k * w.s.diag.get (k + 1) := mul_pos hp1 hp2
      rw [← hdet] at this
      exact pos_of_mul_pos_right this b4.le
    · rw [if_neg h3]
      split_ifs with h4
      · exact b4
      · exact h.pos j h1 h2
  · intro j hj
    simp only [svdSweepNext, rotL_diag, rotR_diag, setDiags_diag, Arr1.upd_get]
    rw [if_neg (by omega), if_neg (by omega)]
    exact h.diag j hj
  · intro j hj
    simp only [svdSweepNext, rotL_off, rotR_off, setDiags_off, sweep_off_get]
    rw [if_neg (by omega), if_neg (by omega), if_neg (by omega)]
    exact h.off j hj
  · intro j hj
    simp only [svdSweepNext, rotL_off, rotR_off, setDiags_off, sweep_off_get]
    rw [if_neg (by omega), if_neg (by omega), if_neg (by omega)]
    exact h.rest j (by omega)
  · intro hk
    simp only [svdSweepNext]
    rw [hlast (by omega)]; ring

/-- The sweep over the reals. -/
theorem svdSweep_real {p d : Nat} {X0 : Matrix (Fin p) (Fin d) ℝ} {up cu cv : Bool} {eps : ℝ}
    {st : SvdState ℝ} (heps : 0 ≤ eps)
    (h : SvdSt (rowsOf p d up) (colsOf p d up) d cu cv st) (hf : SvdOk X0 up eps st.s)
    (hg : SvdGood d st.s st.start st.end) (hse : st.start + 1 < st.end) :
    Succeeds (svdSweep up st) fun st' => SvdShape (rowsOf p d up) (colsOf p d up) d cu cv st'.s ∧
      st'.end = st.end ∧ SvdOk X0 up eps st'.s ∧ (∀ k, k < d → 0 ≤ st'.s.diag.get k) ∧
      (∀ k, st.end ≤ k → k + 1 < d → st'.s.off.get k = 0) := by
  have hend := h.ltd
  refine wp_conseq (wp_svdSweep h.shape hse h.ltd
    (SvdSweepInv X0 up (budget d (2 * eps * frob X0) st.s.off.get) st.s st.start st.end)
    (fun s' => SvdFac X0 up (budget d (2 * eps * frob X0) st.s.off.get)
        (biD d s'.diag.get s'.off.get) s' ∧
      (∀ j, st.start ≤ j → j ≤ st.end → 0 < s'.diag.get j) ∧
      (∀ j, j < st.start ∨ st.end < j → s'.diag.get j = st.s.diag.get j) ∧
      (∀ j, j < st.start ∨ st.end ≤ j → s'.off.get j = st.s.off.get j)) ?_ ?_ ?_ ?_ ?_) ?_
  · refine ⟨?_, fun h => absurd h (lt_irrefl _), fun j h1 h2 => hg.pos j h1 h2 (by omega),
      fun _ _ => rfl, fun _ _ => rfl, fun _ _ => rfl, fun h => by omega⟩
    rw [if_neg (lt_irrefl _), biM_zero]
    exact hf
  · rintro k w hk1 hk2 hs hI hx
    refine ⟨?_, hI.pos, hI.diag, hI.off⟩
    have := hI.fac
    rw [cancelY_real_none hx, ite_self, biM_zero] at this
    exact this
  · rintro k w r1 n1 r2 n2 hk1 hk2 hs hI e1 e2
    exact hI.next hs hk1 hk2 hend hg.start0 (fun hd => hg.offz _ le_rfl hd) e1 e2
  · rintro k w r1 n1 hk1 hk2 hs hI e1 e2
    exfalso
    obtain ⟨a0, -, -, -, a4, -⟩ := cancelY_real e1
    obtain ⟨-, a5⟩ := cancelY_real' e1
    have h0 := cancelY_real_none e2
    simp only [sweepV] at h0
    have hp := hI.pos (k + 1) (by omega) (by omega)
    have h1 : r1.s * w.s.diag.get (k + 1) = 0 := by linarith
    rcases mul_eq_zero.1 h1 with h2 | h2
    · rw [h2] at a5; exact a0 (by rw [a5]; ring)
    · exact hp.ne' h2
  · rintro w hs hI
    refine ⟨?_, hI.pos, hI.diag, hI.off⟩
    have := hI.fac
    rw [hI.last rfl, ite_self, biM_zero] at this
    exact this
  · rintro st' ⟨hs, -, he, hfac, hp, hd, ho⟩
    refine ⟨hs, he, hfac.mono ?_, ?_, ?_⟩
    · refine budget_mono (eta_nonneg heps) fun k _ hk => ?_
      by_cases h1 : k < st.start ∨ st.end ≤ k
      · rw [ho k h1] at hk; exact hk
      · exact hg.offn k (by omega) (by omega)
    · intro k hk
      by_cases h1 : k < st.start ∨ st.end < k
      · rw [hd k h1]; exact hg.nonneg k hk
      · exact (hp k (by omega) (by omega)).le
    · intro k hk hkd
      rw [ho k (Or.inr hk)]; exact hg.offz k hk hkd

/-! ## The 2×2 block -/

/-- `GivensRotation::new` on a nonzero vector. -/
theorem givensNew_real {x y : ℝ} (h : 0 < x * x + y * y) :
    GivensRotation.new x y = (⟨x / √(x * x + y * y), y / √(x * x + y * y)⟩, √(x * x + y * y)) := by
  have hp := Real.sqrt_pos.2 h
  unfold GivensRotation.new GivensRotation.tryNew
  simp only [real_lt, real_hypot, decide_eq_true_eq, if_pos hp, Option.getD_some]

/-- `compute_2x2_uptrig_svd` computes the singular value decomposition of a nonsingular upper
triangular `2 × 2` matrix, and the values do not depend on the requested factors. -/
theorem uptrig2x2_real {a f g : ℝ} (ha : 0 < a) (hf : f ≠ 0) (hg : 0 < g) :
    ∃ (v1 v2 : ℝ) (ru rv : GivensRotation ℝ), 0 < v1 ∧ 0 < v2 ∧
      ru.c * ru.c + ru.s * ru.s = 1 ∧ rv.c * rv.c + rv.s * rv.s = 1 ∧
      v1 * ru.c = a * rv.c + f * rv.s ∧ v1 * ru.s = g * rv.s ∧
      (-a * rv.s + f * rv.c) * ru.c + g * rv.c * ru.s = 0 ∧
      (-a * rv.s + f * rv.c) * (-ru.s) + g * rv.c * ru.c = v2 ∧
      ∀ cu cv, compute2x2UptrigSvd a f g cu cv =
        (v1, v2, if cu then some ru else none, if cv then some rv else none) := by
  have hpp : 0 < (a + g) * (a + g) + f * f := by
    have := mul_self_pos.2 hf
    nlinarith [mul_self_nonneg (a + g)]
  have hqq : 0 ≤ (a - g) * (a - g) + f * f := by
    nlinarith [mul_self_nonneg (a - g), mul_self_nonneg f]
  have hp := Real.sqrt_pos.2 hpp
  have hq := Real.sqrt_nonneg ((a - g) * (a - g) + f * f)
  have hp2 := Real.mul_self_sqrt hpp.le
  have hq2 := Real.mul_self_sqrt hqq
  set p := √((a + g) * (a + g) + f * f) with hpd
  set q := √((a - g) * (a - g) + f * f) with hqd
  have hden : 0 < p + q := by linarith
  obtain ⟨v1, hv1⟩ : ∃ v1, v1 = a * g * 2 / (p + q) := ⟨_, rfl⟩
  obtain ⟨v2, hv2⟩ : ∃ v2, v2 = (p + q) / 2 := ⟨_, rfl⟩
  have v1p : 0 < v1 := by rw [hv1]; positivity
  have v2p : 0 < v2 := by rw [hv2]; positivity
  have hmul : v1 * v2 = a * g := by
    rw [hv1, hv2]; field_simp
  have hv1' : v1 = (p - q) / 2 := by
    rw [hv1, div_eq_div_iff hden.ne' two_ne_zero]
    linear_combination -(hp2 - hq2)
  have hsum : v1 * v1 + v2 * v2 = a * a + g * g + f * f := by
    rw [hv1', hv2]; linear_combination (hp2 + hq2) / 2
  have hchar : (a * a - v1 * v1) * (f * f + g * g - v1 * v1) = a * a * (f * f) := by
    linear_combination (v1 * v1) * hsum - (v1 * v2 + a * g) * hmul
  have hN : 0 < a * f * (a * f) + (v1 * v1 - a * a) * (v1 * v1 - a * a) := by
    have : 0 < a * f * (a * f) := mul_self_pos.2 (mul_ne_zero ha.ne' hf)
    nlinarith [mul_self_nonneg (v1 * v1 - a * a)]
  obtain ⟨N, hNd⟩ : ∃ N, N = √(a * f * (a * f) + (v1 * v1 - a * a) * (v1 * v1 - a * a)) := ⟨_, rfl⟩
  have Np : 0 < N := by rw [hNd]; exact Real.sqrt_pos.2 hN
  have hN2 : N * N = a * f * (a * f) + (v1 * v1 - a * a) * (v1 * v1 - a * a) := by
    rw [hNd]; exact Real.mul_self_sqrt hN.le
  obtain ⟨c, hc⟩ : ∃ c, c = a * f / N := ⟨_, rfl⟩
  obtain ⟨s, hs⟩ : ∃ s, s = (v1 * v1 - a * a) / N := ⟨_, rfl⟩
  have hcN : c * N = a * f := by rw [hc]; field_simp
  have hsN : s * N = v1 * v1 - a * a := by rw [hs]; field_simp
  have hcs : c * c + s * s = 1 := by
    rw [hc, hs]; field_simp; linear_combination -hN2
  have e1 : a * a * c + a * f * s = v1 * v1 * c := by
    rw [hc, hs]; field_simp; ring
  have e2 : a * f * c + (f * f + g * g) * s = v1 * v1 * s := by
    rw [hc, hs]; field_simp; linear_combination -hchar
  -- the left rotation
  have hM : (a * c + f * s) * (a * c + f * s) + g * s * (g * s) = v1 * v1 := by
    linear_combination c * e1 + s * e2 + v1 * v1 * hcs
  have hU2 : ∀ k, 0 < k → ((a * c + f * s) / (v1 * k)) * ((a * c + f * s) / (v1 * k)) +
      (g * s / (v1 * k)) * (g * s / (v1 * k)) = (1 / k) * (1 / k) := by
    intro k hk
    field_simp
    linear_combination hM
  have hU := hU2 N Np
  have hUs : √(((a * c + f * s) / (v1 * N)) * ((a * c + f * s) / (v1 * N)) +
      (g * s / (v1 * N)) * (g * s / (v1 * N))) = 1 / N := by
    rw [hU, Real.sqrt_mul_self (by positivity)]
  refine ⟨v1, v2, ⟨(a * c + f * s) / v1, g * s / v1⟩, ⟨c, s⟩, v1p, v2p, ?_, hcs, ?_, ?_, ?_, ?_, ?_⟩
  · have := hU2 1 one_pos; simpa using this
  · simp only; field_simp
  · simp only; field_simp
  · simp only; field_simp; linear_combination (-s) * e1 + c * e2
  · simp only; field_simp; linear_combination a * g * hcs - hmul
  · intro cu cv
    unfold compute2x2UptrigSvd
    have h2 : (NdFloat.ofRat 2 : ℝ) = 2 := by simp
    simp only [real_hypot, h2]
    simp only [← hpd, ← hqd, ← hv1, ← hv2, givensNew_real hN, ← hNd]
    simp only [← hc, ← hs]
    rw [givensNew_real (by rw [hU]; positivity), hUs]
    have k1 : v1 * N * (1 / N) = v1 := by field_simp
    have k2 : v2 * N * (1 / N) = v2 := by field_simp
    have k3 : (a * c + f * s) / (v1 * N) / (1 / N) = (a * c + f * s) / v1 := by field_simp
    have k4 : g * s / (v1 * N) / (1 / N) = g * s / v1 := by field_simp
    rw [k1, k2, k3, k4]
    cases cu <;> cases cv <;> rfl

/-- The branch `subdim == 2` over the reals. -/
theorem svd2x2_real {p d : Nat} {X0 : Matrix (Fin p) (Fin d) ℝ} {up cu cv : Bool} {eps : ℝ}
    {st : SvdState ℝ} (heps : 0 ≤ eps)
    (h : SvdSt (rowsOf p d up) (colsOf p d up) d cu cv st) (hf : SvdOk X0 up eps st.s)
    (hg : SvdGood d st.s st.start st.end) (hse : st.start + 1 = st.end) :
    Succeeds (svd2x2 up cu cv st) fun st' => SvdShape (rowsOf p d up) (colsOf p d up) d cu cv st'.s ∧
      st'.end = st.end - 1 ∧ SvdOk X0 up eps st'.s ∧ (∀ k, k < d → 0 ≤ st'.s.diag.get k) ∧
      (∀ k, st.end - 1 ≤ k → k + 1 < d → st'.s.off.get k = 0) := by
  have hd := h.ltd
  obtain ⟨v1, v2, ru, rv, v1p, v2p, hu, hv, q1, q2, q3, q4, heq⟩ :=
    uptrig2x2_real (hg.pos st.start le_rfl (by omega) (by omega))
      (hg.offn st.start le_rfl (by omega)) (hg.pos (st.start + 1) (by omega) (by omega) (by omega))
  obtain ⟨u', vt', e, hu1, hv1, hu2, hv2⟩ := svd2x2_eq (up := up) h.shape (by omega : st.start + 1 < d)
  obtain ⟨sh, -, -⟩ := e ▸ svd2x2_shape (up := up) h.shape (by omega : st.start + 1 < d)
  rw [heq] at hu1 hv1
  rw [heq] at e sh
  rw [e]
  refine ⟨sh, rfl, ?_, ?_, ?_⟩
  · -- the factorization
    intro U V hU hV
    simp only at hU hV
    have hcu : cu = true := by
      cases cu
      · rw [hu2 rfl] at hU; simp at hU
      · rfl
    have hcv : cv = true := by
      cases cv
      · rw [hv2 rfl] at hV; simp at hV
      · rfl
    subst hcu hcv
    have hin : ∀ g : GivensRotation ℝ, g.inv2 = g := fun g => by
      simp [GivensRotation.inv2, GivensRotation.inverse]
    simp only at sh ⊢
    set dg := (st.s.diag.upd st.start v1).upd (st.start + 1) v2 with hdg
    have hdata : (⟨dg, st.s.off.upd st.start 0, u', vt'⟩ : SvdData ℝ) =
        ((st.s.setDiags dg (st.s.off.upd st.start 0)).rotR up rv st.start (st.start + 1)).rotL up ru
          st.start (st.start + 1) := by
      cases up
      · simp only [Bool.and_false, Bool.not_false, Bool.and_true, Bool.or_true, Bool.false_eq_true,
          if_false, Bool.false_or] at hu1 hv1
        rw [hu1 rv (by simp), hv1 ru (by simp), hin]
        rfl
      · simp only [Bool.and_true, Bool.true_or, Bool.not_true, Bool.and_false, Bool.or_false,
          if_true] at hu1 hv1
        rw [hu1 ru (by simp), hv1 rv (by simp), hin]
        rfl
    have hsh : SvdShape (rowsOf p d up) (colsOf p d up) d true true
        (st.s.setDiags dg (st.s.off.upd st.start 0)) := h.shape.set (by rfl) (by rfl)
    let d1 : Nat → ℝ := fun j =>
      if j = st.start then rv.c * st.s.diag.get st.start + rv.s * st.s.off.get st.start
      else if j = st.start + 1 then rv.c * st.s.diag.get (st.start + 1) else st.s.diag.get j
    let o1 : Nat → ℝ := fun j =>
      if j = st.start then -rv.s * st.s.diag.get st.start + rv.c * st.s.off.get st.start
      else st.s.off.get j
    have hz : ∀ j, j + 1 = st.start → st.s.off.get j = 0 := by
      intro j hj
      have := hg.start0 (by omega)
      rwa [show st.start - 1 = j by omega] at this
    have hz2 : st.start + 2 < d → st.s.off.get (st.start + 1) = 0 := fun h => hg.offz _ (by omega) h
    have m1 := sweep_matrix1 (n := d) (k := st.start) (by omega) (c := rv.c) (s := -rv.s) (y := 0)
      (d := st.s.diag.get) (e := st.s.off.get) (d' := d1) (e' := o1)
      (by intro j hj; rw [hz j hj]; ring) (fun _ => rfl)
      (by intro j h1 h2; simp [d1, h1, h2]) (by simp [d1])
      (by simp [d1])
      (by intro j _ h2; simp [o1, h2])
      (by
        intro j hj
        simp only [o1]
        rw [if_neg (by omega), hz j hj]; ring)
      (by simp [o1])
    rw [neg_neg, biM_zero] at m1
    have m2 := sweep_matrix2 (n := d) (k := st.start) (by omega) (c := ru.c) (s := -ru.s)
      (v := rv.s * st.s.diag.get (st.start + 1)) (d := d1) (e := o1) (y' := 0)
      (d' := dg.get) (e' := zeroAt st.s.off.get st.start)
      (by simp only [d1, if_true]; linear_combination ru.s * q1 - ru.c * q2)
      (by intro j h1 h2; simp [hdg, Arr1.upd_get, h1, h2, d1])
      (by
        simp only [hdg, Arr1.upd_get, d1]
        rw [if_neg (by omega), if_pos trivial, if_pos trivial]
        linear_combination (-v1) * hu + ru.c * q1 + ru.s * q2)
      (by
        simp only [hdg, Arr1.upd_get, d1, o1]
        rw [if_pos trivial, if_pos trivial, if_neg (by omega), if_pos trivial]
        linear_combination -q4)
      (by intro j h1 h2; simp [zeroAt, o1, h1])
      (by
        simp only [zeroAt, d1, o1]
        rw [if_pos trivial, if_pos trivial, if_neg (by omega), if_pos trivial]
        linear_combination -q3)
      (by
        intro hd2
        simp only [zeroAt, o1]
        rw [if_neg (by omega), if_neg (by omega), hz2 hd2]; ring)
      (by
        intro hd2
        simp only [o1]
        rw [if_neg (by omega), hz2 hd2]; ring)
    rw [biM_zero] at m2
    have fac : SvdFac X0 up (budget d (2 * eps * frob X0) st.s.off.get)
        (biD d dg.get (zeroAt st.s.off.get st.start))
        (((st.s.setDiags dg (st.s.off.upd st.start 0)).rotR up rv st.start (st.start + 1)).rotL up ru
          st.start (st.start + 1)) := by
      refine SvdFac.rotL (B := biD d st.s.diag.get st.s.off.get * rotM d st.start (st.start + 1) rv.c rv.s)
        (cu := true) (cv := true) ?_ (hsh.rotR _ _ _ _) (by omega) (by omega) (by omega) hu ?_
      · exact SvdFac.rotR (cu := true) (cv := true) (SvdFac.set hf _ _) hsh (by omega) (by omega)
          (by omega) hv rfl
      · rw [m1, rotM_transpose _ _ _ (by omega)]
        exact m2
    rw [← hdata] at fac
    have := fac U V hU hV
    rw [upd_zero_get]
    refine this.mono (budget_mono (eta_nonneg heps) fun k _ hk => ?_)
    unfold zeroAt at hk
    split_ifs at hk with h1
    · exact absurd rfl hk
    · exact hk
  · intro k hk
    simp only [Arr1.upd_get]
    split_ifs
    · exact v2p.le
    · exact v1p.le
    · exact hg.nonneg k hk
  · intro k hk hkd
    simp only [Arr1.upd_get]
    split_ifs with h1
    · rfl
    · exact hg.offz k (by omega) hkd

/-- One iteration of the main loop over the reals. -/
theorem svdStep_real {p d : Nat} {X0 : Matrix (Fin p) (Fin d) ℝ} {up cu cv : Bool} {eps : ℝ}
    {st : SvdState ℝ} (heps : 0 ≤ eps) (hX : X0 = 0 ∨ 1 ≤ frob X0)
    (h : SvdSt (rowsOf p d up) (colsOf p d up) d cu cv st) (hf : SvdOk X0 up eps st.s)
    (hg : SvdGood d st.s st.start st.end) (hne : st.end ≠ st.start) :
    Succeeds (svdStep up cu cv eps st) fun st' =>
      SvdSt (rowsOf p d up) (colsOf p d up) d cu cv st' ∧ SvdOk X0 up eps st'.s ∧
      SvdGood d st'.s st'.start st'.end := by
  have hd := h.ltd
  refine wp_svdStep h hne (fun st' => SvdOk X0 up eps st'.s ∧ SvdGood d st'.s st'.start st'.end)
    (fun hs => ?_) (fun hs => ?_)
  · refine wp_conseq (svdSweep_real heps h hf hg hs) ?_
    rintro st1 ⟨sh, e1, ok, nn, oz⟩
    refine ⟨sh, e1, wp_conseq (svdDelimit_real sh ok heps hX hd nn oz) ?_⟩
    rintro q ⟨-, a, b, -⟩
    exact ⟨a, b⟩
  · refine wp_conseq (svd2x2_real heps h hf hg hs) ?_
    rintro st1 ⟨sh, e1, ok, nn, oz⟩
    refine ⟨sh, e1, wp_conseq (svdDelimit_real sh ok heps hX (by omega) nn oz) ?_⟩
    rintro q ⟨-, a, b, -⟩
    exact ⟨a, b⟩

/-- The whole iteration over the reals: if it finishes, the remaining matrix is diagonal. -/
theorem svdIter_real {p d : Nat} {X0 : Matrix (Fin p) (Fin d) ℝ} {up cu cv : Bool} {eps : ℝ}
    {s : SvdData ℝ} (fuel : Nat) (heps : 0 ≤ eps) (hX : X0 = 0 ∨ 1 ≤ frob X0) (hd : d ≠ 0)
    (h : SvdShape (rowsOf p d up) (colsOf p d up) d cu cv s) (hf : SvdOk X0 up eps s)
    (hnn : ∀ k, k < d → 0 ≤ s.diag.get k) :
    wp (do
      let (s, start, e) ← svdDelimit up (d - 1) eps s
      svdLoop up cu cv eps fuel ⟨s, start, e⟩)
      (fun st => SvdShape (rowsOf p d up) (colsOf p d up) d cu cv st.s ∧ SvdOk X0 up eps st.s ∧
        (∀ k, k < d → 0 ≤ st.s.diag.get k) ∧ ∀ k, k + 1 < d → st.s.off.get k = 0)
      (fun f => f = .fuel) := by
  rw [wp_bind]
  refine wp_mono (wp_and (svdDelimit_real h hf heps hX (by omega) hnn (fun k h1 h2 => by omega))
    (svdDelimit_shape (by omega) h)) ?_ (fun _ h => h.elim)
  rintro ⟨s1, start, e⟩ ⟨⟨-, ok, good, -⟩, sh, hlt, hle⟩
  simp only at *
  refine wp_conseq (wp_svdLoop fuel (fun st => SvdSt (rowsOf p d up) (colsOf p d up) d cu cv st ∧
    SvdOk X0 up eps st.s ∧ SvdGood d st.s st.start st.end)
    ⟨⟨sh, hlt, by simp only; omega⟩, ok, good⟩ rfl ?_) ?_
  · rintro st ⟨h1, h2, h3⟩ hne
    exact wp_mono (svdStep_real heps hX h1 h2 h3 hne) (fun _ h => h) (fun _ h => h.elim)
  · rintro st ⟨⟨h1, h2, h3⟩, he⟩
    have h0 : st.end = 0 := by have := h1.lt; omega
    exact ⟨h1.shape, h2, h3.nonneg, fun k hk => h3.offz k (by omega) hk⟩

end LinfaLinalg
