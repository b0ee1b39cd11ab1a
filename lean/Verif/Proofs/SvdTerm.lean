import Verif.Proofs.QrStep
import Verif.Proofs.EighTerm
import Verif.Proofs.SvdGoReal

/-! # Termination of `svd` over the reals

A sweep of `svd` on an upper bidiagonal `B` is a QR step on `BᵀB`. Diagonal entries that are at most
`eps` are set to zero before a block is entered, so the threshold for the off-diagonal entries is at
least `2 eps²` and every matrix is covered. -/

set_option linter.unusedSimpArgs false

namespace LinfaLinalg

open Matrix

/-! ## The Gram matrix of a bidiagonal matrix -/

/-- Diagonal of `BᵀB`. -/
def gramD (dg of : Nat → ℝ) (k : Nat) : ℝ := dg k * dg k + if k = 0 then 0 else of (k - 1) * of (k - 1)

/-- Off-diagonal of `BᵀB`. -/
def gramE (n : Nat) (dg of : Nat → ℝ) (k : Nat) : ℝ := if k + 1 < n then dg k * of k else 0

theorem ent_biD (n : Nat) (dg of : Nat → ℝ) {j r : Nat} (hj : j < n) (hr : r < n) :
    ent (biD n dg of) j r = if j = r then dg j else if r = j + 1 then of j else 0 := by
  rw [ent_of _ hj hr]
  simp only [biD, Matrix.of_apply]

theorem biD_gram (n : Nat) (dg of : Nat → ℝ) :
    (biD n dg of)ᵀ * biD n dg of = tridiag n (gramD dg of) (gramE n dg of) := by
  suffices H : ∀ r c, r < n → c < n → ent ((biD n dg of)ᵀ * biD n dg of) r c =
      ent (tridiag n (gramD dg of) (gramE n dg of)) r c from
    Matrix.ext fun i j => (ent_fin _ i j).trans ((H i j i.2 j.2).trans (ent_fin _ i j).symm)
  intro r c hr hc
  rw [ent_mul _ _ hr hc, ent_tridiag _ _ _ hr hc]
  have hsub : ∀ j ∈ Finset.range n, ent (biD n dg of)ᵀ r j * ent (biD n dg of) j c =
      (if j = r then dg r * ent (biD n dg of) r c else 0) +
      (if j + 1 = r then of (r - 1) * ent (biD n dg of) (r - 1) c else 0) := by
    intro j hj
    rw [Finset.mem_range] at hj
    rw [ent_transpose, ent_biD n dg of hj hr]
    by_cases h1 : j = r
    · subst h1
      rw [if_pos rfl, if_pos rfl, if_neg (by omega), add_zero]
    · rw [if_neg h1, if_neg h1, zero_add]
      by_cases h2 : r = j + 1
      · subst h2
        rw [if_pos rfl, if_pos rfl, Nat.add_sub_cancel]
      · rw [if_neg h2, if_neg (by omega), zero_mul]
  rw [Finset.sum_congr rfl hsub, Finset.sum_add_distrib, Finset.sum_ite_eq' (Finset.range n) r,
    if_pos (Finset.mem_range.2 hr)]
  have e1 : ∑ j ∈ Finset.range n, (if j + 1 = r then of (r - 1) * ent (biD n dg of) (r - 1) c else 0) =
      if r = 0 then 0 else of (r - 1) * ent (biD n dg of) (r - 1) c := by
    by_cases h0 : r = 0
    · rw [if_pos h0]
      exact Finset.sum_eq_zero fun j _ => if_neg (by omega)
    · rw [if_neg h0]
      have : ∀ j ∈ Finset.range n, (if j + 1 = r then of (r - 1) * ent (biD n dg of) (r - 1) c else 0) =
          if j = r - 1 then of (r - 1) * ent (biD n dg of) (r - 1) c else 0 := by
        intro j _
        congr 1
        simp only [eq_iff_iff]; omega
      rw [Finset.sum_congr rfl this, Finset.sum_ite_eq' (Finset.range n) (r - 1),
        if_pos (Finset.mem_range.2 (by omega))]
  rw [e1, ent_biD n dg of hr hc]
  by_cases h0 : r = 0
  · subst h0
    rw [if_pos rfl, add_zero]
    by_cases h1 : c = 0
    · subst h1; simp [gramD]
    · by_cases h2 : c = 1
      · subst h2
        simp [gramE, hc]
      · simp [Ne.symm h1, h2]
  · rw [if_neg h0, ent_biD n dg of (by omega) hc]
    by_cases h1 : r = c
    · subst h1
      rw [if_pos rfl, if_neg (by omega), if_pos (by omega), if_pos rfl, gramD, if_neg h0]
    · rw [if_neg h1, if_neg h1]
      by_cases h2 : c = r + 1
      · subst h2
        rw [if_pos rfl, if_neg (by omega), if_neg (by omega), if_neg (by omega), if_pos rfl, gramE,
          if_pos hc]
        ring
      · rw [if_neg h2, mul_zero, zero_add]
        by_cases h3 : r = c + 1
        · subst h3
          rw [Nat.add_sub_cancel, if_pos rfl, if_pos rfl, gramE, if_pos hr]; ring
        · rw [if_neg (by omega), if_neg (by omega), if_neg h3, if_neg h2, mul_zero]

/-! ## The sweep is a QR step on the Gram matrix -/

theorem rightOf_rotL {d : Nat} {up : Bool} {g : GivensRotation ℝ} {i j : Nat} {s : SvdData ℝ}
    {R : Matrix (Fin d) (Fin d) ℝ} (h : ∀ U V, s.u = some U → s.vt = some V → rightOf d up U V = R) :
    ∀ U V, (s.rotL up g i j).u = some U → (s.rotL up g i j).vt = some V → rightOf d up U V = R := by
  intro U V hU hV
  cases up
  · simp only [SvdData.rotL, Bool.false_eq_true, if_false, Option.map_eq_some_iff] at hU hV
    obtain ⟨V0, hV0, rfl⟩ := hV
    exact h U V0 hU hV0
  · simp only [SvdData.rotL, if_true, Option.map_eq_some_iff] at hU hV
    obtain ⟨U0, hU0, rfl⟩ := hU
    exact h U0 V hU0 hV

theorem rightOf_rotR {p d : Nat} {up cu cv : Bool} {g : GivensRotation ℝ} {i j : Nat} {s : SvdData ℝ}
    {R : Matrix (Fin d) (Fin d) ℝ} (hs : SvdShape (rowsOf p d up) (colsOf p d up) d cu cv s)
    (hi : i < d) (hj : j < d) (hij : i ≠ j)
    (h : ∀ U V, s.u = some U → s.vt = some V → rightOf d up U V = R) :
    ∀ U V, (s.rotR up g i j).u = some U → (s.rotR up g i j).vt = some V →
      rightOf d up U V = R * rotM d i j g.c g.s := by
  intro U V hU hV
  cases up
  · simp only [SvdData.rotR, Bool.false_eq_true, if_false, Option.map_eq_some_iff] at hU hV
    obtain ⟨U0, hU0, rfl⟩ := hU
    rw [← h U0 V hU0 hV]
    simp only [rightOf, Bool.false_eq_true, if_false]
    rw [toMat_rotCols (m := d) (n := d) g U0 (hs.u U0 hU0) hi hj hij]
  · simp only [SvdData.rotR, if_true, Option.map_eq_some_iff] at hU hV
    obtain ⟨V0, hV0, rfl⟩ := hV
    rw [← h U V0 hU hV0]
    simp only [rightOf, if_true]
    rw [toMat_rotRows (m := d) (n := d) g V0 (hs.vt V0 hV0) hi hj hij]

/-- The accumulated right rotation of the sweep. -/
structure SvdQr (n start e : Nat) (up : Bool) (R0 : Matrix (Fin n) (Fin n) ℝ) (x0 y0 : ℝ) (i : Nat)
    (w : SvdSweep ℝ) (W : Matrix (Fin n) (Fin n) ℝ) : Prop where
  q : ∀ U V, w.s.u = some U → w.s.vt = some V → rightOf n up U V = R0 * Wᵀ
  loc : ∀ r c, r < n → c < n → i < r ∨ i < c ∨ r < start ∨ c < start →
    ent W r c = if r = c then 1 else 0
  hess : ∀ r c, r + 1 < c → ent W r c = 0
  init : i = start → W = 1 ∧ w.x = x0 ∧ w.y = y0
  first : start < i → ∀ r, r < n → r ≠ start → x0 * ent W r start + y0 * ent W r (start + 1) = 0
  y : i < e → w.y ≠ 0

theorem SvdQr.next {p n start e i : Nat} {up cu cv : Bool} {R0 : Matrix (Fin n) (Fin n) ℝ} {x0 y0 : ℝ}
    {w : SvdSweep ℝ} {W : Matrix (Fin n) (Fin n) ℝ} (hW : SvdQr n start e up R0 x0 y0 i w W)
    (hs : SvdShape (rowsOf p n up) (colsOf p n up) n cu cv w.s)
    (h1 : start ≤ i) (h2 : i < e) (hen : e < n) (hpos : 0 < w.s.diag.get (i + 1))
    (hoff : i + 1 < e → w.s.off.get (i + 1) ≠ 0)
    {r1 r2 : GivensRotation ℝ} {n1 n2 : ℝ} (e1 : GivensRotation.cancelY w.x w.y = some (r1, n1))
    (e2 : GivensRotation.cancelY (sweepV i w r1).1 (sweepV i w r1).2 = some (r2, n2)) :
    SvdQr n start e up R0 x0 y0 (i + 1) (svdSweepNext up start e i w r1 n1 r2 n2)
      (rotM n i (i + 1) r1.c r1.s * W) := by
  obtain ⟨hy0, c1, c2, c3, -, -⟩ := cancelY_real e1
  obtain ⟨hy1, d1, d2, d3, -, -⟩ := cancelY_real e2
  have hrot : ∀ {r k : Nat}, r < n → k < n → ent (rotM n i (i + 1) r1.c r1.s * W) r k =
      if r = i then r1.c * ent W i k - r1.s * ent W (i + 1) k
      else if r = i + 1 then r1.s * ent W i k + r1.c * ent W (i + 1) k else ent W r k :=
    fun hr hk => ent_rotM_mul (by omega) (by omega) (by omega) _ _ W hr hk
  have hs2 : r2.s ≠ 0 := by
    intro h0
    rw [h0] at d1 d3
    have : r2.c * (sweepV i w r1).2 = 0 := by linarith
    rcases mul_eq_zero.1 this with h | h
    · rw [h] at d1; norm_num at d1
    · exact hy1 h
  refine ⟨?_, ?_, ?_, ?_, ?_, ?_⟩
  · simp only [svdSweepNext]
    have hl : ∀ b c : ℝ, ((if i ≠ e - 1 then ((if start < i then w.s.off.upd (i - 1) n1 else w.s.off).upd i b).upd (i + 1) c
      else (if start < i then w.s.off.upd (i - 1) n1 else w.s.off).upd i b) : Arr1 ℝ).len = w.s.off.len := by
      intro b c
      split_ifs <;> rfl
    refine rightOf_rotL ?_
    have := rightOf_rotR (p := p) (g := r1.inverse) (i := i) (j := i + 1) (R := R0 * Wᵀ)
      (hs.set (dg := (w.s.diag.upd i n2).upd (i + 1) (- -r2.s * (- -r1.s * w.s.diag.get i + w.s.off.get i * r1.c) +
        (- -r1.s * 0 + w.s.diag.get (i + 1) * r1.c) * r2.c)) (by rfl)
        (hl ((- -r1.s * w.s.diag.get i + w.s.off.get i * r1.c) * r2.c + -r2.s * (- -r1.s * 0 + w.s.diag.get (i + 1) * r1.c))
          (- -r2.s * 0 + sweepM12 e i w.s * r2.c))) (by omega) (by omega) (by omega) hW.q
    intro U V hU hV
    rw [this U V hU hV, Matrix.transpose_mul, rotM_transpose _ _ _ (by omega), Matrix.mul_assoc]
    rfl
  · intro r c hr hc' hrc
    rw [hrot hr hc']
    by_cases r1 : r = i
    · subst r1
      rw [if_pos rfl, hW.loc r c hr hc' (by omega), hW.loc (r + 1) c (by omega) hc' (by omega),
        if_neg (by omega), if_neg (by omega)]
      ring
    · rw [if_neg r1]
      by_cases r2 : r = i + 1
      · subst r2
        rw [if_pos rfl, hW.loc i c (by omega) hc' (by omega), hW.loc (i + 1) c (by omega) hc' (by omega),
          if_neg (by omega), if_neg (by omega)]
        ring
      · rw [if_neg r2, hW.loc r c hr hc' (by omega)]
  · intro r c hrc
    by_cases hin : r < n ∧ c < n
    · rw [hrot hin.1 hin.2]
      by_cases r1 : r = i
      · subst r1
        rw [if_pos rfl, hW.hess r c (by omega), hW.loc (r + 1) c (by omega) hin.2 (by omega),
          if_neg (by omega)]
        ring
      · rw [if_neg r1]
        by_cases r2 : r = i + 1
        · subst r2
          rw [if_pos rfl, hW.hess i c (by omega), hW.hess (i + 1) c (by omega)]
          ring
        · rw [if_neg r2, hW.hess r c (by omega)]
    · exact ent_out _ (by omega)
  · intro h; omega
  · intro _ r hr hrs
    rw [hrot hr (by omega), hrot hr (by omega)]
    by_cases his : i = start
    · subst his
      obtain ⟨w1, w2, w3⟩ := hW.init rfl
      rw [if_neg hrs, if_neg hrs, w1]
      by_cases r2 : r = i + 1
      · subst r2
        rw [if_pos rfl, if_pos rfl, ent_one n (by omega) (by omega), ent_one n (by omega) (by omega),
          ent_one n (by omega) (by omega), ent_one n (by omega) (by omega), if_pos rfl, if_neg (by omega),
          if_neg (by omega), if_pos rfl, ← w2, ← w3]
        linear_combination c3
      · rw [if_neg r2, if_neg r2, ent_one n hr (by omega), ent_one n hr (by omega), if_neg hrs,
          if_neg r2]
        ring
    · have f1 := hW.first (by omega) i (by omega) his
      have f2 := hW.first (by omega) (i + 1) (by omega) (by omega)
      have f3 := hW.first (by omega) r hr hrs
      split_ifs
      · linear_combination r1.c * f1 - r1.s * f2
      · linear_combination r1.s * f1 + r1.c * f2
      · exact f3
  · intro hie
    simp only [svdSweepNext, sweepM12]
    rw [if_neg (by omega), zero_mul, zero_add]
    exact mul_ne_zero (neg_ne_zero.2 hs2) (hoff hie)

/-- The part of the Gram matrix that one sweep changes. -/
structure SvdQrStep (d : Nat) (st st' : SvdState ℝ) : Prop where
  qr : ∃ W, QrStep d st.start st.end (wilkinsonShift (gramD st.s.diag.get st.s.off.get (st.end - 1))
      (gramD st.s.diag.get st.s.off.get st.end) (gramE d st.s.diag.get st.s.off.get (st.end - 1)))
    (gramD st.s.diag.get st.s.off.get) (gramE d st.s.diag.get st.s.off.get)
    (gramD st'.s.diag.get st'.s.off.get) (gramE d st'.s.diag.get st'.s.off.get) W
  off : ∀ j, j < st.start ∨ st.end ≤ j → st'.s.off.get j = st.s.off.get j

theorem svdSweep_qr {p d : Nat} {up : Bool}
    {st : SvdState ℝ} (h : SvdSt (rowsOf p d up) (colsOf p d up) d true true st)
    (X : Matrix (Fin p) (Fin d) ℝ) (δ : ℝ) (hf : SvdFac X up δ (biD d st.s.diag.get st.s.off.get) st.s)
    (hg : SvdGood d st.s st.start st.end) (hse : st.start + 1 < st.end) :
    Succeeds (svdSweep up st) fun st' => SvdShape (rowsOf p d up) (colsOf p d up) d true true st'.s ∧
      st'.start = st.start ∧ st'.end = st.end ∧ SvdQrStep d st st' := by
  have hend := h.ltd
  obtain ⟨U0, hU0⟩ := Option.isSome_iff_exists.1 h.shape.hu
  obtain ⟨V0, hV0⟩ := Option.isSome_iff_exists.1 h.shape.hv
  obtain ⟨oL, oR, -, -⟩ := hf U0 V0 hU0 hV0
  set L0 := leftOf p d up U0 V0 with hL0
  set R0 := rightOf d up U0 V0 with hR0
  set B := biD d st.s.diag.get st.s.off.get with hB
  have hX0 : SvdFac (L0 * B * R0ᵀ) up 0 B st.s := by
    intro U V hU hV
    rw [hU0] at hU; cases hU
    rw [hV0] at hV; cases hV
    refine ⟨oL, oR, by rw [sub_self, frob_zero], ?_⟩
    rw [frob_mul_orth (by rw [Matrix.transpose_transpose]; exact oR), frob_orth_mul oL]
  set σ := wilkinsonShift (gramD st.s.diag.get st.s.off.get (st.end - 1))
      (gramD st.s.diag.get st.s.off.get st.end) (gramE d st.s.diag.get st.s.off.get (st.end - 1)) with hσ
  set x0 := st.s.diag.get st.start * st.s.diag.get st.start - σ with hx0
  set y0 := st.s.diag.get st.start * st.s.off.get st.start with hy0
  have hσ' : σ = wilkinsonShift (st.s.diag.get (st.end - 1) * st.s.diag.get (st.end - 1) +
      st.s.off.get (st.end - 1 - 1) * st.s.off.get (st.end - 1 - 1))
      (st.s.diag.get st.end * st.s.diag.get st.end + st.s.off.get (st.end - 1) * st.s.off.get (st.end - 1))
      (st.s.diag.get (st.end - 1) * st.s.off.get (st.end - 1)) := by
    rw [hσ, gramD, gramD, gramE, if_neg (by omega), if_neg (by omega), if_pos (by omega)]
  refine wp_conseq (wp_svdSweep h.shape hse h.ltd
    (fun k w => SvdSweepInv (L0 * B * R0ᵀ) up 0 st.s st.start st.end k w ∧
      ∃ W, SvdQr d st.start st.end up R0 x0 y0 k w W)
    (fun s' => SvdQrStep d st ⟨s', st.start, st.end⟩) ?_ ?_ ?_ ?_ ?_) ?_
  · refine ⟨⟨?_, fun h => absurd h (lt_irrefl _), fun j h1 h2 => hg.pos j h1 h2 (by omega),
      fun _ _ => rfl, fun _ _ => rfl, fun _ _ => rfl, fun h => by omega⟩, 1, ?_, ?_, ?_, ?_, ?_, ?_⟩
    · rw [if_neg (lt_irrefl _), biM_zero]
      exact hX0
    · intro U V hU hV
      have hU' : st.s.u = some U := hU
      have hV' : st.s.vt = some V := hV
      rw [hU0] at hU'; cases hU'
      rw [hV0] at hV'; cases hV'
      rw [Matrix.transpose_one, Matrix.mul_one]
    · intro r c hr hc _; exact ent_one d hr hc
    · intro r c hrc
      by_cases h : r < d ∧ c < d
      · rw [ent_one d h.1 h.2, if_neg (by omega)]
      · exact ent_out _ (by omega)
    · intro _
      refine ⟨rfl, ?_, rfl⟩
      rw [hx0, hσ']
      rfl
    · intro h; omega
    · intro _
      exact mul_ne_zero (hg.pos _ le_rfl (by omega) (by omega)).ne' (hg.offn _ le_rfl (by omega))
  · rintro k w hk1 hk2 hs ⟨hI, W, hW⟩ hx
    exact absurd (cancelY_real_none hx) (hW.y hk2)
  · rintro k w r1 n1 r2 n2 hk1 hk2 hs ⟨hI, W, hW⟩ e1 e2
    refine ⟨hI.next hs hk1 hk2 hend hg.start0 (fun hd => hg.offz _ le_rfl hd) e1 e2, _,
      hW.next hs hk1 hk2 hend (hI.pos _ (by omega) (by omega)) ?_ e1 e2⟩
    intro hk
    rw [hI.rest _ (by omega)]
    exact hg.offn _ (by omega) hk
  · rintro k w r1 n1 hk1 hk2 hs ⟨hI, W, hW⟩ e1 e2
    exfalso
    obtain ⟨a0, -, -, -, a4, -⟩ := cancelY_real e1
    obtain ⟨-, a5⟩ := cancelY_real' e1
    have h0 := cancelY_real_none e2
    simp only [sweepV] at h0
    have hp := hI.pos (k + 1) (by omega) (by omega)
    have h1 : r1.s * w.s.diag.get (k + 1) = 0 := by linarith
    rcases mul_eq_zero.1 h1 with h2 | h2
    · rw [h2] at a5; exact a0 (by rw [a5]; ring)
    · exact hp.ne' h2
  · rintro w hs ⟨hI, W, hW⟩
    obtain ⟨U1, hU1⟩ := Option.isSome_iff_exists.1 hs.hu
    obtain ⟨V1, hV1⟩ := Option.isSome_iff_exists.1 hs.hv
    have hfac := hI.fac
    rw [hI.last rfl, ite_self, biM_zero] at hfac
    obtain ⟨oL1, oR1, hd, -⟩ := hfac U1 V1 hU1 hV1
    have hq := hW.q U1 V1 hU1 hV1
    set L1 := leftOf p d up U1 V1
    set R1 := rightOf d up U1 V1
    set B1 := biD d w.s.diag.get w.s.off.get with hB1
    have heq : L0 * B * R0ᵀ = L1 * B1 * R1ᵀ :=
      sub_eq_zero.1 (frob_eq_zero (le_antisymm hd (frob_nonneg _)))
    have hRR : R0 * R0ᵀ = 1 := mul_eq_one_comm.1 oR
    have hWt : Wᵀ = R0ᵀ * R1 := by rw [hq, ← Matrix.mul_assoc, oR, Matrix.one_mul]
    have hRR1 : R1 * R1ᵀ = 1 := mul_eq_one_comm.1 oR1
    have hW1 : W = R1ᵀ * R0 := by
      have := congrArg Matrix.transpose hWt
      rwa [Matrix.transpose_transpose, Matrix.transpose_mul, Matrix.transpose_transpose] at this
    have hWW : Wᵀ * W = 1 := by
      rw [hWt, hW1, Matrix.mul_assoc, ← Matrix.mul_assoc R1, hRR1, Matrix.one_mul, oR]
    have hg0 : R0 * (Bᵀ * B) * R0ᵀ = R1 * (B1ᵀ * B1) * R1ᵀ := by
      have e0 : ∀ (L : Matrix (Fin p) (Fin d) ℝ) (M R : Matrix (Fin d) (Fin d) ℝ), Lᵀ * L = 1 →
          (L * M * Rᵀ)ᵀ * (L * M * Rᵀ) = R * (Mᵀ * M) * Rᵀ := by
        intro L M R hL
        calc (L * M * Rᵀ)ᵀ * (L * M * Rᵀ) = R * (Mᵀ * ((Lᵀ * L) * M)) * Rᵀ := by
              simp only [Matrix.transpose_mul, Matrix.transpose_transpose, Matrix.mul_assoc]
          _ = _ := by rw [hL, Matrix.one_mul]
      rw [← e0 L0 B R0 oL, heq, e0 L1 B1 R1 oL1]
    refine ⟨⟨W, hWW, ?_, hW.hess, ?_, ?_⟩, hI.off⟩
    · rw [← biD_gram, ← biD_gram, ← hB, ← hB1, hW1, Matrix.transpose_mul, Matrix.transpose_transpose]
      calc R1ᵀ * R0 * (Bᵀ * B) * (R0ᵀ * R1) = R1ᵀ * (R0 * (Bᵀ * B) * R0ᵀ) * R1 := by
            simp only [Matrix.mul_assoc]
        _ = (R1ᵀ * R1) * (B1ᵀ * B1) * (R1ᵀ * R1) := by rw [hg0]; simp only [Matrix.mul_assoc]
        _ = _ := by rw [oR1, Matrix.one_mul, Matrix.mul_one]
    · intro a b ha hb' hab
      exact hW.loc a b ha hb' (by omega)
    · intro a ha has
      have := hW.first (by omega) a ha has
      rw [Matrix.mul_sub, Matrix.mul_smul, Matrix.mul_one, ent_sub, ent_smul,
        ent_mul_tridiag _ _ _ ha (by omega)]
      have z : (if st.start = 0 then 0 else ent W a (st.start - 1) *
          gramE d st.s.diag.get st.s.off.get (st.start - 1)) = 0 := by
        by_cases hz : st.start = 0
        · rw [if_pos hz]
        · rw [if_neg hz, gramE, if_pos (by omega), hg.start0 hz, mul_zero, mul_zero]
      have z2 : gramD st.s.diag.get st.s.off.get st.start =
          st.s.diag.get st.start * st.s.diag.get st.start := by
        by_cases hz : st.start = 0
        · rw [gramD, if_pos hz, add_zero]
        · rw [gramD, if_neg hz, hg.start0 hz, mul_zero, add_zero]
      rw [z, z2, gramE, if_pos (by omega)]
      rw [hx0, hy0] at this
      linear_combination this
  · rintro st' ⟨hs, e1, e2, hq⟩
    refine ⟨hs, e1, e2, ⟨?_, hq.off⟩⟩
    exact hq.qr

/-! ## Delimiting -/

/-- No entry of the block is negligible. -/
def SvdClean (eps : ℝ) (s : SvdData ℝ) (start e : Nat) : Prop :=
  (∀ k, start ≤ k → k ≤ e → eps < |s.diag.get k|) ∧
    ∀ k, start ≤ k → k < e → eps * (|s.diag.get (k + 1)| + |s.diag.get k|) < |s.off.get k|

/-- If `end` stays, `start` does not go down, and if it stays too then the block is left alone and
nothing in it is negligible. -/
theorem svdDelimit_progress {r c d start e : Nat} {up cu cv : Bool} {eps : ℝ} {s : SvdData ℝ}
    (h : SvdShape r c d cu cv s) (heps : 0 ≤ eps) (he : e < d) (hse : start < e)
    (h0 : start ≠ 0 → s.off.get (start - 1) = 0) :
    Succeeds (svdDelimit up e eps s) fun q => q.2.2 < e ∨ q.2.2 = e ∧ (start < q.2.1 ∨ q.2.1 = start ∧
      SvdClean eps q.1 start e ∧ q.1.diag = s.diag ∧ ∀ k, start ≤ k → q.1.off.get k = s.off.get k) := by
  unfold svdDelimit Succeeds
  rw [wp_bind]
  refine wp_conseq (wp_svdDelimitEnd he h (fun m s' => m = e ∧ s' = s ∨ m < e)
    (fun s' m => m < e ∨ m = e ∧ s' = s ∧ ¬ svdTiny eps s e ∧ ¬ svdTiny eps s (e - 1) ∧
      ¬ svdSmall eps s (e - 1)) (Or.inl ⟨rfl, rfl⟩) ?_ ?_ ?_ ?_ ?_) ?_
  · intro m s' hm _ _ _; exact Or.inr hm
  · intro m s' hm hs _ _ _ _
    exact wp_conseq (svdKill_shape hs (by omega) (by omega)) fun _ h => ⟨h, Or.inr hm⟩
  · intro m s' hm hs _ _ _ _ _
    exact wp_conseq (cancelV_shape (hs.set rfl rfl) (by omega)) fun _ h => ⟨h, Or.inr hm⟩
  · rintro m s' hm hs hI - h1 h2 h3
    rcases hI with ⟨rfl, rfl⟩ | hI
    · exact Or.inr ⟨rfl, rfl, h3, h2, h1⟩
    · exact Or.inl hI
  · rintro s' hs hI
    left; omega
  · rintro ⟨s1, n⟩ ⟨hs1, hn, hP⟩
    simp only at hs1 hn hP ⊢
    by_cases hn0 : n = 0
    · rw [if_pos hn0]
      left; simp only; omega
    rw [if_neg hn0, wp_bind]
    rcases hP with hlt | ⟨rfl, rfl, t1, t2, t3⟩
    · refine wp_conseq (wp_svdDelimitStart (by omega) (by omega) hs1 (fun _ _ => True)
        (fun _ _ => True) trivial (fun _ _ _ _ _ _ => trivial) ?_
        (fun _ _ _ _ _ _ _ => trivial) (fun _ _ _ => trivial)) ?_
      · intro m s hm hs _ _ _
        exact wp_conseq (svdKill_shape hs (by omega) (by omega)) fun _ h => ⟨h, trivial⟩
      · rintro ⟨s2, st⟩ -
        left; exact hlt
    · have hsm : start ≠ 0 → svdSmall eps s1 (start - 1) := by
        intro hz
        rw [svdSmall_real, h0 hz, abs_zero]; positivity
      have hclean : ∀ s', s'.diag = s1.diag → (∀ k, start ≤ k → s'.off.get k = s1.off.get k) →
          (∀ k, start ≤ k → k < n → ¬ svdSmall eps s1 k ∧ ¬ svdTiny eps s1 k) →
          SvdClean eps s' start n := by
        intro s' e1 e2 hk
        constructor
        · intro k k1 k2
          rw [e1]
          by_cases hkn : k = n
          · rw [hkn]
            rw [svdTiny_real] at t1
            exact not_le.1 t1
          · have := (hk k k1 (by omega)).2
            rw [svdTiny_real] at this
            exact not_le.1 this
        · intro k k1 k2
          rw [e1, e2 k k1]
          have := (hk k k1 k2).1
          rw [svdSmall_real] at this
          exact not_le.1 this
      refine wp_conseq (wp_svdDelimitStart (e := n - 1) (by omega) he hs1
        (fun m s' => s' = s1 ∧ start ≤ m ∧
          ∀ k, m ≤ k → k < n → ¬ svdSmall eps s1 k ∧ ¬ svdTiny eps s1 k)
        (fun s' m => start < m ∨ m = start ∧ SvdClean eps s' start n ∧ s'.diag = s1.diag ∧
          ∀ k, start ≤ k → s'.off.get k = s1.off.get k) ⟨rfl, by omega, ?_⟩ ?_ ?_ ?_ ?_) ?_
      · intro k k1 k2
        rw [show k = n - 1 by omega]
        exact ⟨t3, t2⟩
      · rintro m s' hm hs ⟨rfl, k1, k2⟩ hd
        by_cases hlt : start < m + 1
        · exact Or.inl hlt
        · have hoff : ∀ k, start ≤ k → (s'.setDiags s'.diag (s'.off.upd m 0)).off.get k = s'.off.get k := by
            intro k hk
            simp only [setDiags_off, Arr1.upd_get]
            rw [if_neg (by omega)]
          exact Or.inr ⟨by omega, hclean _ rfl hoff (fun k a b => k2 k (by omega) b), rfl, hoff⟩
      · rintro m s' hm hs ⟨rfl, k1, k2⟩ hns ht
        refine wp_conseq (svdKill_shape hs (by omega) (by omega)) fun _ h => ⟨h, Or.inl ?_⟩
        by_contra hlt
        have := hsm (by omega)
        rw [show start - 1 = m by omega] at this
        exact hns this
      · rintro m s' hm hs ⟨rfl, k1, k2⟩ hns hnt
        refine ⟨rfl, ?_, ?_⟩
        · by_contra hlt
          have := hsm (by omega)
          rw [show start - 1 = m by omega] at this
          exact hns this
        · intro k a b
          by_cases hkm : k = m
          · rw [hkm]; exact ⟨hns, hnt⟩
          · exact k2 k (by omega) b
      · rintro s' hs ⟨rfl, k1, k2⟩
        exact Or.inr ⟨by omega, hclean _ rfl (fun _ _ => rfl) (fun k a b => k2 k (by omega) b), rfl,
          fun _ _ => rfl⟩
      · rintro ⟨s2, st⟩ ⟨-, -, hP⟩
        exact Or.inr ⟨rfl, hP⟩

/-! ## Counting iterations -/

/-- The potential of the active block. -/
def SvdState.pot (d : Nat) (st : SvdState ℝ) : ℝ :=
  LinfaLinalg.pot (gramE d st.s.diag.get st.s.off.get) st.end

/-- If every iteration lowers `end`, or raises `start`, or halves the potential and leaves it above
`τ`, then the main loop ends. -/
theorem svdLoop_terminates {up cu cv : Bool} {eps τ : ℝ} (d K : Nat) (Inv : SvdState ℝ → Prop)
    (h0 : ∀ st, Inv st → st.start < st.end ∨ st.start = 0 ∧ st.end = 0) (hd : ∀ st, Inv st → st.end < d)
    (hK : ∀ st, Inv st → st.pot d < τ * 2 ^ K)
    (hstep : ∀ st, Inv st → st.end ≠ st.start → Succeeds (svdStep up cu cv eps st) fun st' => Inv st' ∧
      (st'.end < st.end ∨ st'.end = st.end ∧ (st.start < st'.start ∨ st'.start = st.start ∧
        τ ≤ st'.pot d ∧ 2 * st'.pot d ≤ st.pot d)))
    (fuel : Nat) (k : Nat) (st : SvdState ℝ) (hi : Inv st) (hk : st.pot d < τ * 2 ^ k)
    (hf : (st.end * d + (st.end - st.start)) * (K + 1) + k ≤ fuel) :
    Succeeds (svdLoop up cu cv eps fuel st) Inv := by
  induction fuel generalizing k st with
  | zero =>
    unfold svdLoop
    have : st.end = st.start := by
      by_contra hne
      have := h0 st hi
      have : 0 < (st.end * d + (st.end - st.start)) * (K + 1) := Nat.mul_pos (by omega) (by omega)
      omega
    rw [if_pos this]
    exact hi
  | succ fuel ih =>
    unfold svdLoop
    by_cases hne : st.end = st.start
    · rw [if_pos hne]; exact hi
    · rw [if_neg hne]
      unfold Succeeds
      rw [wp_bind]
      refine wp_conseq (hstep st hi hne) fun st' => ?_
      rintro ⟨hi', hcase⟩
      have h0' := h0 st hi
      have h0'' := h0 st' hi'
      have hd' := hd st hi
      have hd'' := hd st' hi'
      have key : st'.end * d + (st'.end - st'.start) + 1 ≤ st.end * d + (st.end - st.start) →
          (st'.end * d + (st'.end - st'.start)) * (K + 1) + K ≤ fuel := by
        intro hle
        have := Nat.mul_le_mul_right (K + 1) hle
        rw [Nat.add_mul, one_mul] at this
        omega
      rcases hcase with hlt | ⟨heq, hlt | ⟨hst, hτ, hhalf⟩⟩
      · refine ih K st' hi' (hK st' hi') (key ?_)
        have : (st'.end + 1) * d ≤ st.end * d := Nat.mul_le_mul_right d hlt
        rw [Nat.add_mul, one_mul] at this
        omega
      · refine ih K st' hi' (hK st' hi') (key ?_)
        rw [heq]
        omega
      · have hk0 : k ≠ 0 := by
          rintro rfl
          rw [pow_zero, mul_one] at hk
          have : 0 ≤ st'.pot d := by unfold SvdState.pot LinfaLinalg.pot; positivity
          linarith
        obtain ⟨j, rfl⟩ := Nat.exists_eq_succ_of_ne_zero hk0
        refine ih j st' hi' ?_ ?_
        · rw [pow_succ] at hk
          linarith
        · rw [heq, hst]
          omega

/-- Every iteration over the reals makes progress. -/
theorem svdStep_progress {p d : Nat} {X0 : Matrix (Fin p) (Fin d) ℝ} {up : Bool} {eps : ℝ}
    {st : SvdState ℝ} (heps : 0 < eps)
    (h : SvdSt (rowsOf p d up) (colsOf p d up) d true true st) (hf : SvdOk X0 up eps st.s)
    (hg : SvdGood d st.s st.start st.end) (hne : st.end ≠ st.start) :
    Succeeds (svdStep up true true eps st) fun st' =>
      SvdSt (rowsOf p d up) (colsOf p d up) d true true st' ∧
      (st'.end < st.end ∨ st'.end = st.end ∧ (st.start < st'.start ∨ st'.start = st.start ∧
        (2 * eps ^ 3) ^ 6 ≤ st'.pot d ∧ 2 * st'.pot d ≤ st.pot d)) := by
  have hd := h.ltd
  refine wp_svdStep h hne (fun st' => st'.end < st.end ∨ st'.end = st.end ∧ (st.start < st'.start ∨
    st'.start = st.start ∧ (2 * eps ^ 3) ^ 6 ≤ st'.pot d ∧ 2 * st'.pot d ≤ st.pot d))
    (fun hs => ?_) (fun hs => ?_)
  · refine wp_conseq (svdSweep_qr h X0 _ hf hg hs) ?_
    rintro st1 ⟨sh, e0, e1, ⟨W, hq⟩, hoff⟩
    refine ⟨sh, e1, wp_conseq (svdDelimit_progress (start := st.start) sh heps.le hd (by omega) ?_) ?_⟩
    · intro hz
      rw [hoff _ (Or.inl (by omega))]; exact hg.start0 hz
    rintro ⟨s2, a, b⟩ hcase
    rcases hcase with hlt | ⟨hb, hlt | ⟨ha, ⟨c1, c2⟩, hdg, ho⟩⟩
    · exact Or.inl hlt
    · exact Or.inr ⟨hb, Or.inl hlt⟩
    · refine Or.inr ⟨hb, Or.inr ⟨ha, ?_, ?_⟩⟩
      · simp only at ha hb hdg c1 c2 ⊢
        subst hb
        have key : ∀ k, st.start ≤ k → k < st.end → 2 * eps ^ 3 ≤ |gramE d s2.diag.get s2.off.get k| := by
          intro k k1 k2
          rw [gramE, if_pos (by omega), abs_mul]
          have a1 := c1 k k1 k2.le
          have a2 := c1 (k + 1) (by omega) (by omega)
          have a3 := c2 k k1 k2
          have a4 : eps * (eps + eps) ≤ |s2.off.get k| :=
            le_trans (mul_le_mul_of_nonneg_left (by linarith) heps.le) a3.le
          calc 2 * eps ^ 3 = eps * (eps * (eps + eps)) := by ring
            _ ≤ _ := mul_le_mul a1.le a4 (by positivity) (abs_nonneg _)
        unfold SvdState.pot
        simp only
        exact pot_lower (by positivity) (key _ (by omega) (by omega)) (key _ (by omega) (by omega))
      · simp only at ha hb hdg ho ⊢
        subst hb
        have hpot : SvdState.pot d ⟨s2, a, st.end⟩ =
            LinfaLinalg.pot (gramE d st1.s.diag.get st1.s.off.get) st.end := by
          unfold SvdState.pot LinfaLinalg.pot gramE
          simp only
          rw [hdg, ho _ (by omega), ho _ (by omega)]
        rw [hpot]
        refine hq.halves hd (by omega) ?_ ?_ ?_ ?_ rfl
        · intro k k1 k2
          rw [gramE, if_pos (by omega)]
          exact mul_ne_zero (hg.pos k k1 k2.le (by omega)).ne' (hg.offn k k1 k2)
        · rw [gramE]
          split_ifs with hh
          · rw [hg.offz _ le_rfl hh, mul_zero]
          · rfl
        · intro hz
          rw [gramE, if_pos (by omega), hg.start0 hz, mul_zero]
        · intro hz
          rw [gramE, if_pos (by omega), hoff _ (Or.inl (by omega)), hg.start0 hz, mul_zero]
  · refine wp_conseq (svd2x2_shape h.shape (by omega)) ?_
    rintro st1 ⟨sh, -, e1⟩
    refine ⟨sh, e1, wp_conseq (svdDelimit_shape (by omega) sh) ?_⟩
    rintro ⟨s2, a, b⟩ ⟨-, -, hb⟩
    left
    simp only at hb ⊢
    omega

/-- All entries are bounded by the norm of the given matrix. -/
theorem SvdOk.pot_le {p d : Nat} {X0 : Matrix (Fin p) (Fin d) ℝ} {up : Bool} {eps : ℝ} {st : SvdState ℝ}
    (h : SvdSt (rowsOf p d up) (colsOf p d up) d true true st) (hf : SvdOk X0 up eps st.s) :
    st.pot d ≤ (frob X0 ^ 2) ^ 6 := by
  obtain ⟨U0, hU0⟩ := Option.isSome_iff_exists.1 h.shape.hu
  obtain ⟨V0, hV0⟩ := Option.isSome_iff_exists.1 h.shape.hv
  have hn := (hf U0 V0 hU0 hV0).norm
  have key : ∀ k, |gramE d st.s.diag.get st.s.off.get k| ≤ frob X0 ^ 2 := by
    intro k
    rw [gramE]
    split_ifs with hk
    · rw [abs_mul, sq]
      exact mul_le_mul ((abs_diag_le_frob _ _ (by omega)).trans hn) ((abs_off_le_frob _ _ hk).trans hn)
        (abs_nonneg _) (frob_nonneg _)
    · rw [abs_zero]; positivity
  exact pot_upper (key _) (key _)

/-- The main loop of `svd` ends, with both factors. -/
theorem svdIter_terminates {p d : Nat} {X0 : Matrix (Fin p) (Fin d) ℝ} {up : Bool} {eps : ℝ}
    {s : SvdData ℝ} (heps : 0 < eps) (hX : X0 = 0 ∨ 1 ≤ frob X0) (hd : d ≠ 0)
    (h : SvdShape (rowsOf p d up) (colsOf p d up) d true true s) (hf : SvdOk X0 up eps s)
    (hnn : ∀ k, k < d → 0 ≤ s.diag.get k) (K : Nat)
    (hK : (frob X0 ^ 2) ^ 6 < (2 * eps ^ 3) ^ 6 * 2 ^ K) (fuel : Nat) (hfuel : d * d * (K + 1) ≤ fuel) :
    Succeeds (do
      let (s, start, e) ← svdDelimit up (d - 1) eps s
      svdLoop up true true eps fuel ⟨s, start, e⟩)
      (fun st => SvdShape (rowsOf p d up) (colsOf p d up) d true true st.s) := by
  unfold Succeeds
  rw [wp_bind]
  refine wp_conseq (wp_and (svdDelimit_real h hf heps.le hX (by omega) hnn (fun k h1 h2 => by omega))
    (svdDelimit_shape (by omega) h)) ?_
  rintro ⟨s1, start, e⟩ ⟨⟨-, ok, good, -⟩, sh, hlt, hle⟩
  simp only at *
  refine wp_conseq (svdLoop_terminates (τ := (2 * eps ^ 3) ^ 6) d K (fun st => SvdSt (rowsOf p d up) (colsOf p d up) d true true st ∧
    SvdOk X0 up eps st.s ∧ SvdGood d st.s st.start st.end) ?_ ?_ ?_ ?_ fuel K ⟨s1, start, e⟩
    ⟨⟨sh, hlt, by simp only; omega⟩, ok, good⟩ ?_ ?_) ?_
  · rintro st ⟨h1, -, -⟩; exact h1.lt
  · rintro st ⟨h1, -, -⟩; exact h1.ltd
  · rintro st ⟨h1, h2, -⟩; exact lt_of_le_of_lt (h2.pot_le h1) hK
  · rintro st ⟨h1, h2, h3⟩ hne
    refine wp_conseq (wp_and (svdStep_real heps.le hX h1 h2 h3 hne) (svdStep_progress heps h1 h2 h3 hne)) ?_
    rintro st' ⟨a, -, b⟩
    exact ⟨a, b⟩
  · exact lt_of_le_of_lt (SvdOk.pot_le ⟨sh, hlt, by simp only; omega⟩ ok) hK
  · refine le_trans ?_ hfuel
    simp only
    have h1 : e * d + (e - start) + 1 ≤ d * d := by
      have : (e + 1) * d ≤ d * d := Nat.mul_le_mul_right d (by omega)
      rw [Nat.add_mul, one_mul] at this
      omega
    have := Nat.mul_le_mul_right (K + 1) h1
    rw [Nat.add_mul, one_mul] at this
    omega
  · rintro st ⟨h1, -, -⟩
    exact h1.shape

end LinfaLinalg
