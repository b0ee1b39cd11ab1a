import Verif.Proofs.QrStep
import Mathlib.LinearAlgebra.Matrix.PosDef
import Mathlib.Analysis.Matrix.Order
import Mathlib.Analysis.Normed.Group.Constructions
import Mathlib.Topology.Algebra.Module.FiniteDimension

/-! # Termination of `symmetric_eig` over the reals -/

set_option linter.unusedSimpArgs false

namespace LinfaLinalg

open Matrix

/-! ## The sweep is a QR step -/

theorem ent_rotM_mul {m n i j : Nat} (hi : i < n) (hj : j < n) (hij : i ≠ j) (c s : ℝ)
    (A : Matrix (Fin n) (Fin m) ℝ) {r k : Nat} (hr : r < n) (hk : k < m) :
    ent (rotM n i j c s * A) r k =
      if r = i then c * ent A i k - s * ent A j k
      else if r = j then s * ent A i k + c * ent A j k else ent A r k := by
  rw [ent_of _ hr hk, rotM_mul_apply hi hj hij, ent_of A hi hk, ent_of A hj hk, ent_of A hr hk]

/-- Effect of the sweep so far on the accumulated rotation. -/
structure SweepQr (n start e : Nat) (Q0 : Matrix (Fin n) (Fin n) ℝ) (off0 : Arr1 ℝ) (x0 y0 : ℝ)
    (i : Nat) (st : SweepState ℝ) (W : Matrix (Fin n) (Fin n) ℝ) : Prop where
  q : ∃ Q, st.q = some Q ∧ HasShape Q n n ∧ toMat n n Q = Q0 * Wᵀ
  loc : ∀ r c, r < n → c < n → i < r ∨ i < c ∨ r < start ∨ c < start →
    ent W r c = if r = c then 1 else 0
  hess : ∀ r c, r + 1 < c → ent W r c = 0
  init : i = start → W = 1 ∧ st.x = x0 ∧ st.y = y0
  first : start < i → ∀ r, r < n → r ≠ start → x0 * ent W r start + y0 * ent W r (start + 1) = 0
  y : i < e → st.y ≠ 0
  off : ∀ k, i < k → k < e → st.off.get k = off0.get k

theorem sweep_qr {n start e : Nat} {Q0 : Matrix (Fin n) (Fin n) ℝ} {s : SweepState ℝ} {Q : Arr2 ℝ}
    (hse : start < e) (hen : e < n) (hs : SweepShape n s) (hq : s.q = some Q)
    (hQ : toMat n n Q = Q0) (hy : s.y ≠ 0) (hoff : ∀ k, start < k → k < e → s.off.get k ≠ 0) :
    Succeeds (loopBrk (List.range' start (e - start)) s (sweepStep start e))
      (fun st => SweepShape n st ∧ ∃ W, SweepQr n start e Q0 s.off s.x s.y e st W) := by
  refine wp_sweep hen hse.le hs (fun i st => ∃ W, SweepQr n start e Q0 s.off s.x s.y i st W) _
    ⟨1, ⟨Q, hq, hs.q Q hq, ?_⟩, ?_, ?_, ?_, ?_, ?_, ?_⟩ ?_ ?_ ?_
  · rw [Matrix.transpose_one, Matrix.mul_one, hQ]
  · intro r c hr hc _; exact ent_one n hr hc
  · intro r c hrc
    by_cases h : r < n ∧ c < n
    · rw [ent_one n h.1 h.2, if_neg (by omega)]
    · exact ent_out _ (by omega)
  · intro _; exact ⟨rfl, rfl, rfl⟩
  · intro h; omega
  · intro _; exact hy
  · intros; rfl
  · rintro i st rot norm h1 h2 hst ⟨W, hW⟩ hc
    obtain ⟨hy0, c1, c2, c3, -, -⟩ := cancelY_real hc
    obtain ⟨Q', e1, e2, e3⟩ := hW.q
    have hrot : ∀ {r k : Nat}, r < n → k < n → ent (rotM n i (i + 1) rot.c rot.s * W) r k =
        if r = i then rot.c * ent W i k - rot.s * ent W (i + 1) k
        else if r = i + 1 then rot.s * ent W i k + rot.c * ent W (i + 1) k else ent W r k :=
      fun hr hk => ent_rotM_mul (by omega) (by omega) (by omega) _ _ W hr hk
    have hs0 : rot.s ≠ 0 := by
      intro h0
      rw [h0] at c1 c3
      have : rot.c * st.y = 0 := by linarith
      rcases mul_eq_zero.1 this with h | h
      · rw [h] at c1; norm_num at c1
      · exact hy0 h
    refine ⟨rotM n i (i + 1) rot.c rot.s * W, ⟨rotCols rot.inverse i (i + 1) Q', ?_, e2, ?_⟩,
      ?_, ?_, ?_, ?_, ?_, ?_⟩
    · simp only [sweepNext, e1, Option.map_some]
    · rw [toMat_rotCols _ _ e2 (by omega) (by omega) (by omega), e3, Matrix.transpose_mul,
        rotM_transpose _ _ _ (by omega), Matrix.mul_assoc]
      rfl
    · intro r c hr hc' hrc
      rw [hrot hr hc']
      by_cases r1 : r = i
      · subst r1
        rw [if_pos rfl, hW.loc r c hr hc' (by omega), hW.loc (r + 1) c (by omega) hc' (by omega),
          if_neg (by omega), if_neg (by omega)]
        ring
      · rw [if_neg r1]
        by_cases r2 : r = i + 1
        · subst r2
          rw [if_pos rfl, hW.loc i c (by omega) hc' (by omega), hW.loc (i + 1) c (by omega) hc' (by omega),
            if_neg (by omega), if_neg (by omega)]
          ring
        · rw [if_neg r2, hW.loc r c hr hc' (by omega)]
    · intro r c hrc
      by_cases hin : r < n ∧ c < n
      · rw [hrot hin.1 hin.2]
        by_cases r1 : r = i
        · subst r1
          rw [if_pos rfl, hW.hess r c (by omega), hW.loc (r + 1) c (by omega) hin.2 (by omega),
            if_neg (by omega)]
          ring
        · rw [if_neg r1]
          by_cases r2 : r = i + 1
          · subst r2
            rw [if_pos rfl, hW.hess i c (by omega), hW.hess (i + 1) c (by omega)]
            ring
          · rw [if_neg r2, hW.hess r c (by omega)]
      · exact ent_out _ (by omega)
    · intro h; omega
    · intro _ r hr hrs
      rw [hrot hr (by omega), hrot hr (by omega)]
      by_cases his : i = start
      · subst his
        obtain ⟨w1, w2, w3⟩ := hW.init rfl
        rw [if_neg hrs, if_neg hrs, w1]
        by_cases r2 : r = i + 1
        · subst r2
          rw [if_pos rfl, if_pos rfl, ent_one n (by omega) (by omega), ent_one n (by omega) (by omega),
            ent_one n (by omega) (by omega), ent_one n (by omega) (by omega), if_pos rfl, if_neg (by omega),
            if_neg (by omega), if_pos rfl, ← w2, ← w3]
          linear_combination c3
        · rw [if_neg r2, if_neg r2, ent_one n hr (by omega), ent_one n hr (by omega), if_neg hrs,
            if_neg r2]
          ring
      · have f1 := hW.first (by omega) i (by omega) his
        have f2 := hW.first (by omega) (i + 1) (by omega) (by omega)
        have f3 := hW.first (by omega) r hr hrs
        split_ifs
        · linear_combination rot.c * f1 - rot.s * f2
        · linear_combination rot.s * f1 + rot.c * f2
        · exact f3
    · intro hie
      have hin : i ≠ e - 1 := by omega
      simp only [sweepNext, if_pos hin, Arr1.upd_get]
      rw [if_neg (by omega)]
      have : (if start < i then st.off.upd (i - 1) norm else st.off).get (i + 1) =
          st.off.get (i + 1) := by
        split_ifs
        · rw [Arr1.upd_get, if_neg (by omega)]
        · rfl
      rw [this, hW.off (i + 1) (by omega) hie]
      exact mul_ne_zero (neg_ne_zero.2 hs0) (hoff (i + 1) (by omega) hie)
    · intro k k1 k2
      rw [← hW.off k (by omega) k2]
      simp only [sweepNext]
      split_ifs <;> simp only [Arr1.upd_get] <;> split_ifs <;> first | rfl | omega
  · rintro i st h1 h2 hst ⟨W, hW⟩ hc
    exact absurd (cancelY_real_none hc) (hW.y h2)
  · rintro st hst ⟨W, hW⟩
    exact ⟨W, hW⟩

/-- A sweep of the main loop is a QR step. -/
theorem EigReal.qr {n : Nat} {A0 : Matrix (Fin n) (Fin n) ℝ} {eps : ℝ}
    {st : EigState ℝ} (h : EigReal n A0 eps st) (hsh : EigShape n eps st)
    (hs : st.start + 1 < st.end) (σ : ℝ) (r : SweepState ℝ)
    (hl : loopBrk (List.range' st.start (st.end - st.start))
        (⟨st.diag, st.off, st.q, st.diag.get st.start - σ, st.off.get st.start⟩ : SweepState ℝ)
        (sweepStep st.start st.end) = .ok r) :
    ∃ W : Matrix (Fin n) (Fin n) ℝ, QrStep n st.start st.end σ st.diag.get (eff st.off st.end)
        r.diag.get (eff r.off st.end) W ∧
      (∀ a b, a < n → b < n → a < st.start ∨ st.end < a → ent W a b = if a = b then 1 else 0) ∧
      (∀ k, k < st.start ∨ st.end ≤ k → r.off.get k = st.off.get k) := by
  obtain ⟨⟨Q, τ, e1, e2, e3, e4⟩, h0, hb, -⟩ := h
  have hlt := hsh.lt
  have hw := sweep_real (n := n) (start := st.start) (e := st.end)
    (T0 := tridiag n st.diag.get (eff st.off st.end)) (Q0 := toMat n n Q) (σ := τ)
    (s := ⟨st.diag, st.off, st.q, st.diag.get st.start - σ, st.off.get st.start⟩) (Q := Q) (by omega) hlt
    ⟨hsh.diag, hsh.off, hsh.q⟩ e1 rfl rfl h0 (e4 (by omega))
  have hw2 := sweep_qr (n := n) (start := st.start) (e := st.end) (Q0 := toMat n n Q)
    (s := ⟨st.diag, st.off, st.q, st.diag.get st.start - σ, st.off.get st.start⟩) (Q := Q) (by omega) hlt
    ⟨hsh.diag, hsh.off, hsh.q⟩ e1 rfl (hb _ le_rfl (by omega)) (fun k k1 k2 => hb k (by omega) k2)
  rw [hl] at hw hw2
  obtain ⟨-, ⟨⟨W, Q', f1, f2, f3, f4, f5, f6⟩, hf, -⟩⟩ := hw
  obtain ⟨-, W', hW'⟩ := hw2
  rw [triB_zero] at f6
  have hWW : W' = W := by
    obtain ⟨Q'', g1, g2, g3⟩ := hW'.q
    rw [f1, Option.some.injEq] at g1
    subst g1
    rw [f3] at g3
    have := congrArg (fun X => (toMat n n Q)ᵀ * X) g3
    simp only [← Matrix.mul_assoc, e3.orth, Matrix.one_mul] at this
    exact (Matrix.transpose_injective this).symm
  subst hWW
  refine ⟨W', ⟨f4, f6, hW'.hess, ?_, ?_⟩, ?_, hf⟩
  · intro a b ha hb' hab
    exact hW'.loc a b ha hb' (by omega)
  · intro a ha has
    have := hW'.first (by omega) a ha has
    rw [Matrix.mul_sub, Matrix.mul_smul, Matrix.mul_one, ent_sub, ent_smul,
      ent_mul_tridiag _ _ _ ha (by omega)]
    have z : (if st.start = 0 then 0 else ent W' a (st.start - 1) * eff st.off st.end (st.start - 1)) = 0 := by
      by_cases hz : st.start = 0
      · rw [if_pos hz]
      · rw [if_neg hz, eff, if_pos (by omega), h0 hz, mul_zero]
    rw [z, eff, if_pos (by omega)]
    simp only at this
    linear_combination this
  · intro a b ha hb' hab
    exact hW'.loc a b ha hb' (by omega)

/-- A QR step also bounds the last off-diagonal entry by the one before. -/
theorem QrStep.last_le {n s E : Nat} {σ : ℝ} {d e d' e' : Nat → ℝ} {W : Matrix (Fin n) (Fin n) ℝ}
    (h : QrStep n s E σ d e d' e' W) (hE : E < n) (hsE : s + 2 ≤ E)
    (he : ∀ k, s ≤ k → k < E → e k ≠ 0) (heE : e E = 0)
    (hs : s ≠ 0 → e (s - 1) = 0) (hs' : s ≠ 0 → e' (s - 1) = 0)
    (hσ : σ = wilkinsonShift (d (E - 1)) (d E) (e (E - 1))) :
    |e' (E - 1)| ≤ |e (E - 2)| := by
  obtain ⟨ρ, μ, h1, h2, h3, h4, h5⟩ := h.last hE hsE he heE hs hs'
  obtain ⟨w1, w2⟩ := wilkinsonShift_real (d (E - 1)) (d E) (e (E - 1))
  rw [← hσ] at w1 w2
  have hb1 : e (E - 1) ≠ 0 := he (E - 1) (by omega) (by omega)
  have hWW : W * Wᵀ = 1 := mul_eq_one_comm.1 h.orth
  have hle : ∀ r c, |ent W r c| ≤ 1 := by
    intro r c
    by_cases hrc : r < n ∧ c < n
    · have := congrArg (fun X => ent X r r) hWW
      rw [ent_mul _ _ hrc.1 hrc.1, ent_one n hrc.1 hrc.1, if_pos rfl] at this
      have h2 : ent W r c * ent W r c ≤ 1 := by
        rw [← this]
        have := Finset.single_le_sum (f := fun j => ent W r j * ent Wᵀ j r)
          (fun j _ => by rw [ent_transpose]; exact mul_self_nonneg _) (Finset.mem_range.2 hrc.2)
        simp only [ent_transpose] at this ⊢
        exact this
      rw [← sq] at h2
      exact (sq_le_one_iff_abs_le_one _).1 h2
    · rw [ent_out W (by omega), abs_zero]; norm_num
  have r1 : e (E - 1) * ρ = -(e (E - 2) * ent W E (E - 2) * (d E - σ)) := by
    rw [h4]
    linear_combination (-ent W E (E - 1)) * w1 - (d E - σ) * h5
  have r2 : |ρ| ≤ |e (E - 2)| := by
    have hp : 0 < |e (E - 1)| := abs_pos.2 hb1
    refine le_of_mul_le_mul_left ?_ hp
    rw [← abs_mul, r1, abs_neg, abs_mul, abs_mul]
    calc |e (E - 2)| * |ent W E (E - 2)| * |d E - σ| ≤ |e (E - 2)| * 1 * |e (E - 1)| :=
          mul_le_mul (mul_le_mul_of_nonneg_left (hle _ _) (abs_nonneg _)) w2 (abs_nonneg _)
            (by positivity)
      _ = _ := by ring
  rw [h2, abs_mul]
  calc |ρ| * |ent W (E - 1) E| ≤ |ρ| * 1 := mul_le_mul_of_nonneg_left (hle _ _) (abs_nonneg _)
    _ ≤ _ := by rw [mul_one]; exact r2

/-! ## Counting iterations -/

/-- If every iteration lowers `end` or halves the potential, which stays above `τ`, the main loop ends
within `end * (K + 1)` iterations. -/
theorem eigLoop_terminates {eps τ : ℝ} (K : Nat) (Inv : EigState ℝ → Prop)
    (h0 : ∀ st, Inv st → st.end ≠ st.start → st.end ≠ 0)
    (hK : ∀ st, Inv st → pot (eff st.off st.end) st.end < τ * 2 ^ K)
    (hstep : ∀ st, Inv st → st.end ≠ st.start → Succeeds (eigStep eps st) fun st' => Inv st' ∧
      (st'.end < st.end ∨ st'.end = st.end ∧ τ ≤ pot (eff st.off st.end) st.end ∧
        2 * pot (eff st'.off st'.end) st'.end ≤ pot (eff st.off st.end) st.end))
    (fuel : Nat) (E k : Nat) (st : EigState ℝ) (hi : Inv st) (hE : st.end ≤ E)
    (hk : pot (eff st.off st.end) st.end < τ * 2 ^ k ∨ st.end < E)
    (hf : E ≠ 0 → k + 1 + (E - 1) * (K + 1) ≤ fuel) : Succeeds (eigLoop eps fuel st) Inv := by
  induction fuel generalizing E k st with
  | zero =>
    unfold eigLoop
    have : st.end = st.start := by
      by_contra hne
      have := h0 st hi hne
      have := hf (by omega)
      omega
    rw [if_pos this]
    exact hi
  | succ fuel ih =>
    unfold eigLoop
    by_cases hne : st.end = st.start
    · rw [if_pos hne]; exact hi
    · rw [if_neg hne]
      unfold Succeeds
      rw [wp_bind]
      have hE0 := h0 st hi hne
      have hf' := hf (by omega)
      refine wp_conseq (hstep st hi hne) fun st' => ?_
      rintro ⟨hi', hcase⟩
      have hsplit : (E - 1) * (K + 1) = (E - 1 - 1) * (K + 1) + (K + 1) ∨ E - 1 = 0 := by
        by_cases h : E - 1 = 0
        · exact Or.inr h
        · left
          obtain ⟨m, hm⟩ : ∃ m, E - 1 = m + 1 := ⟨E - 2, by omega⟩
          rw [hm, Nat.add_sub_cancel]; ring
      rcases hcase with hlt | ⟨heq, hτ, hhalf⟩
      · refine ih (E - 1) K st' hi' (by omega) (Or.inl (hK st' hi')) ?_
        intro hE1
        rcases hsplit with h | h <;> omega
      · by_cases hlt : st.end < E
        · refine ih (E - 1) K st' hi' (by omega) (Or.inl (hK st' hi')) ?_
          intro hE1
          rcases hsplit with h | h <;> omega
        · have hk' := hk.resolve_right hlt
          have hk0 : k ≠ 0 := by
            rintro rfl
            rw [pow_zero, mul_one] at hk'
            linarith
          obtain ⟨j, rfl⟩ := Nat.exists_eq_succ_of_ne_zero hk0
          refine ih E j st' hi' (by omega) (Or.inl ?_) (fun _ => by omega)
          rw [pow_succ] at hk'
          linarith

/-! ## One iteration -/

/-- How one branch of the loop body changes the matrix. -/
inductive EigBranch (n : Nat) (st mid : EigState ℝ) : Prop
  | two (hs : st.start + 1 = st.end) (he : mid.end = st.end - 1) (ho : mid.off = st.off)
      (hd : ∀ k, k ≠ st.start → k ≠ st.start + 1 → mid.diag.get k = st.diag.get k)
  | sweep (hs : st.start + 1 < st.end) (he : mid.end = st.end - 1 ∨ mid.end = st.end)
      (W : Matrix (Fin n) (Fin n) ℝ)
      (hW : QrStep n st.start st.end (wilkinsonShift (st.diag.get (st.end - 1)) (st.diag.get st.end)
        (st.off.get (st.end - 1))) st.diag.get (eff st.off st.end) mid.diag.get (eff mid.off st.end) W)
      (hl : ∀ a b, a < n → b < n → a < st.start ∨ st.end < a → ent W a b = if a = b then 1 else 0)
      (hf : ∀ k, k < st.start ∨ st.end ≤ k → mid.off.get k = st.off.get k)

/-- `EigReal.step` with the branch that was taken. -/
theorem EigReal.stepBranch {n : Nat} {A0 : Matrix (Fin n) (Fin n) ℝ} {eps : ℝ} (heps : 0 ≤ eps)
    (hA0 : A0 = 0 ∨ 1 ≤ frob A0) {st : EigState ℝ} (h : EigReal n A0 eps st)
    (hsh : EigShape n eps st) (hne : st.end ≠ st.start) :
    Succeeds (eigStep eps st) (fun st' => (EigShape n eps st' ∧ EigReal n A0 eps st') ∧
      ∃ mid, EigBranch n st mid ∧ st'.diag = mid.diag ∧
        DelimSpec mid.diag mid.off eps mid.end st'.off st'.start st'.end) := by
  refine wp_conseq (wp_eigStep hsh hne (fun mid => EigMid n A0 eps mid ∧ EigBranch n st mid) ?_ ?_) ?_
  · intro hs
    have h1 := h.two heps hA0 hsh hs
    rw [eig2x2_eq hsh hs] at h1 ⊢
    cases hc : compute2x2Eigvals (st.diag.get st.start) (st.off.get st.start) (st.off.get st.start)
        (st.diag.get (st.start + 1)) with
    | none => rw [hc] at h1; exact h1.elim
    | some p =>
      obtain ⟨l0, l1⟩ := p
      rw [hc] at h1
      refine ⟨h1, EigBranch.two hs rfl rfl ?_⟩
      intro k k1 k2
      simp only [Arr1.upd_get, if_neg k1, if_neg k2]
  · intro r e hs _ hr hl
    refine ⟨h.sweep heps hsh hs _ _ r e (by simpa using hr) hl, ?_⟩
    obtain ⟨W, w1, w2, w3⟩ := h.qr hsh hs _ r hl
    exact EigBranch.sweep hs (by rcases hr with hr | hr; exacts [Or.inl hr.1, Or.inr hr]) W w1 w2 w3
  · rintro st' ⟨h1, mid, ⟨hm, hb⟩, -, -, hd, hq, ds⟩
    exact ⟨⟨h1, DelimSpec.real heps hm hd hq ds⟩, mid, hb, hd, ds⟩

theorem eff_of_lt (off : Arr1 ℝ) {k m : Nat} (h : m < k) : eff off k m = off.get m := if_pos h

theorem eff_of_ge (off : Arr1 ℝ) {k m : Nat} (h : k ≤ m) : eff off k m = 0 := if_neg (by omega)

/-- Every iteration lowers `end`, or halves the potential and bounds the new last off-diagonal entry by
the old last but one. -/
theorem EigBranch.progress {n : Nat} {A0 : Matrix (Fin n) (Fin n) ℝ} {eps : ℝ} {st mid st' : EigState ℝ}
    (h : EigReal n A0 eps st) (hsh : EigShape n eps st) (hne : st.end ≠ st.start)
    (hb : EigBranch n st mid)
    (ds : DelimSpec mid.diag mid.off eps mid.end st'.off st'.start st'.end) :
    st'.end < st.end ∨ st'.end = st.end ∧ st.start + 2 ≤ st.end ∧
      2 * pot (eff st'.off st'.end) st'.end ≤ pot (eff st.off st.end) st.end ∧
      |st'.off.get (st'.end - 1)| ≤ |st.off.get (st.end - 2)| := by
  have hle := ds.le
  have hle' := hsh.le
  have hlt := hsh.lt
  have hst : st.end ≠ 0 := by omega
  cases hb with
  | two hs he ho hd => left; omega
  | sweep hs he W hW hl hf =>
    by_cases hend : st'.end < st.end
    · exact Or.inl hend
    right
    have e1 : st'.end = st.end := by omega
    have e2 : mid.end = st.end := by omega
    have hslt := ds.lt (by omega)
    have hz : st.start ≠ 0 → eff st.off st.end (st.start - 1) = 0 := by
      intro hs0
      rw [eff_of_lt _ (by omega)]; exact h.start0 hs0
    have hz' : st.start ≠ 0 → eff mid.off st.end (st.start - 1) = 0 := by
      intro hs0
      rw [eff_of_lt _ (by omega), hf _ (Or.inl (by omega))]; exact h.start0 hs0
    have hblk : ∀ k, st.start ≤ k → k < st.end → eff st.off st.end k ≠ 0 := by
      intro k k1 k2
      rw [eff_of_lt _ k2]; exact h.block k k1 k2
    have hσ : wilkinsonShift (st.diag.get (st.end - 1)) (st.diag.get st.end) (st.off.get (st.end - 1)) =
        wilkinsonShift (st.diag.get (st.end - 1)) (st.diag.get st.end) (eff st.off st.end (st.end - 1)) := by
      rw [eff_of_lt _ (by omega)]
    have h1 := hW.halves hlt (by omega) hblk (eff_of_ge _ le_rfl) hz hz' hσ
    have h2 := hW.last_le hlt (by omega) hblk (eff_of_ge _ le_rfl) hz hz' hσ
    refine ⟨e1, by omega, ?_, ?_⟩
    · refine le_trans ?_ h1
      rw [e1]
      have g1 : eff st'.off st.end (st.end - 1) = eff mid.off st.end (st.end - 1) := by
        rw [eff_of_lt _ (by omega), eff_of_lt _ (by omega), ds.get, if_neg (by omega)]
      have g2 : eff st'.off st.end (st.end - 2) = eff mid.off st.end (st.end - 2) ∨
          eff st'.off st.end (st.end - 2) = 0 := by
        rw [eff_of_lt _ (by omega), eff_of_lt _ (by omega), ds.get]
        split_ifs
        · exact Or.inr rfl
        · exact Or.inl rfl
      unfold pot
      rw [g1]
      rcases g2 with g2 | g2
      · rw [g2]
      · rw [g2]
        have : 0 ≤ (eff mid.off st.end (st.end - 1) ^ 2 * eff mid.off st.end (st.end - 2)) ^ 2 :=
          sq_nonneg _
        simp only [mul_zero]
        nlinarith
    · rw [eff_of_lt _ (by omega), eff_of_lt _ (by omega)] at h2
      rw [e1, ds.get, if_neg (by omega)]
      exact h2

/-! ## Well-conditioned matrices -/

open scoped Matrix.Norms.Frobenius in
theorem frob_mul_le {n m k : Nat} (A : Matrix (Fin n) (Fin m) ℝ) (B : Matrix (Fin m) (Fin k) ℝ) :
    frob (A * B) ≤ frob A * frob B := by
  simp only [frob_eq_norm]; exact Matrix.frobenius_norm_mul A B

/-- The length of a column of the current matrix is bounded below by the smallest singular value. -/
theorem EigApx.col {n : Nat} {A0 : Matrix (Fin n) (Fin n) ℝ} {eps lam : ℝ} {d e : Nat → ℝ}
    {Q : Matrix (Fin n) (Fin n) ℝ} {σ : Equiv.Perm (Fin n)} (h : EigApx n A0 eps d e Q σ)
    (heps : 0 ≤ eps) (hlam : ∀ u : Matrix (Fin n) (Fin 1) ℝ, lam * frob u ≤ frob (A0 * u)) (k : Fin n) :
    lam - 2 * (n - 1 : Nat) * eps * frob A0 ≤ Real.sqrt (∑ i, tridiag n d e i k ^ 2) := by
  set j := σ.symm k with hj
  set T := tridiag n d e with hT
  -- the unit vector that `Q` takes to the column
  set v : Matrix (Fin n) (Fin 1) ℝ := Matrix.of fun i _ => if i = j then 1 else 0 with hv
  have hv1 : frob v = 1 := by
    unfold frob
    simp [hv]
  have hcol : frob (T.submatrix σ σ * v) = Real.sqrt (∑ i, T i k ^ 2) := by
    unfold frob
    congr 1
    rw [← Equiv.sum_comp σ (fun i => T i k ^ 2)]
    refine Finset.sum_congr rfl fun i _ => ?_
    rw [Fin.sum_univ_one, Matrix.mul_apply, Finset.sum_eq_single j]
    · simp [hv, hj]
    · intro b _ hb; simp [hv, hb]
    · simp
  have h1 := hlam (Q * v)
  rw [frob_orth_mul h.orth, hv1, mul_one] at h1
  have h2 : A0 * (Q * v) = (A0 - Q * T.submatrix σ σ * Qᵀ) * (Q * v) + Q * (T.submatrix σ σ * v) := by
    rw [Matrix.sub_mul]
    have : Q * T.submatrix σ σ * Qᵀ * (Q * v) = Q * (T.submatrix σ σ * v) := by
      rw [Matrix.mul_assoc _ Qᵀ, ← Matrix.mul_assoc Qᵀ, h.orth, Matrix.one_mul, Matrix.mul_assoc]
    rw [this, sub_add_cancel]
  rw [h2] at h1
  have h3 := h1.trans (frob_add_le _ _)
  rw [frob_orth_mul h.orth, hcol] at h3
  have h4 := frob_mul_le (A0 - Q * T.submatrix σ σ * Qᵀ) (Q * v)
  rw [frob_orth_mul h.orth, hv1, mul_one] at h4
  have h5 := h.dist
  have h6 : ((n - 1 - cnt n e : Nat) : ℝ) * (2 * eps * frob A0) ≤ ((n - 1 : Nat) : ℝ) * (2 * eps * frob A0) := by
    refine mul_le_mul_of_nonneg_right ?_ (mul_nonneg (by linarith) (frob_nonneg _))
    exact_mod_cast Nat.sub_le _ _
  linarith

/-- The last diagonal entry of the active block is not small when the entry beside it is. -/
theorem EigReal.last_diag {n : Nat} {A0 : Matrix (Fin n) (Fin n) ℝ} {eps lam lam' : ℝ} {st : EigState ℝ}
    (h : EigReal n A0 eps st) (hsh : EigShape n eps st) (hne : st.end ≠ st.start) (heps : 0 ≤ eps)
    (hlam : ∀ u : Matrix (Fin n) (Fin 1) ℝ, lam * frob u ≤ frob (A0 * u))
    (hlam' : lam' = lam - 2 * (n - 1 : Nat) * eps * frob A0) (hpos : 0 < lam') :
    lam' ^ 2 ≤ st.diag.get st.end ^ 2 + st.off.get (st.end - 1) ^ 2 := by
  obtain ⟨⟨Q, σ, e1, e2, e3, e4⟩, h0, hb, hen⟩ := h
  have hlt := hsh.lt
  have hle := hsh.le
  have hc := e3.col heps hlam ⟨st.end, hlt⟩
  rw [← hlam'] at hc
  have h1 : lam' ^ 2 ≤ ∑ i, tridiag n st.diag.get (eff st.off st.end) i ⟨st.end, hlt⟩ ^ 2 := by
    have := pow_le_pow_left₀ hpos.le hc 2
    rwa [Real.sq_sqrt (Finset.sum_nonneg fun _ _ => sq_nonneg _)] at this
  refine h1.trans (le_of_eq ?_)
  rw [Fintype.sum_eq_add (⟨st.end, hlt⟩ : Fin n) ⟨st.end - 1, by omega⟩
    (by intro hh; rw [Fin.mk.injEq] at hh; omega)]
  · simp only [tridiag, Matrix.of_apply, if_true]
    rw [if_neg (by omega), if_neg (by omega), if_pos (by omega), eff_of_lt _ (by omega)]
  · rintro i ⟨i1, i2⟩
    have j1 : (i : Nat) ≠ st.end := fun hh => i1 (Fin.ext hh)
    have j2 : (i : Nat) ≠ st.end - 1 := fun hh => i2 (Fin.ext hh)
    simp only [tridiag, Matrix.of_apply]
    rw [if_neg j1]
    by_cases h3 : (i : Nat) = st.end + 1
    · rw [if_pos h3, eff_of_ge _ le_rfl]; norm_num
    · rw [if_neg h3, if_neg (by omega)]; norm_num

/-- On a well-conditioned matrix the last off-diagonal entry of an active block exceeds
`eps * lam' / 2`. -/
theorem EigReal.last_off {n : Nat} {A0 : Matrix (Fin n) (Fin n) ℝ} {eps lam lam' : ℝ} {st : EigState ℝ}
    (h : EigReal n A0 eps st) (hsh : EigShape n eps st) (hne : st.end ≠ st.start) (heps : 0 < eps)
    (heps1 : eps ≤ 1)
    (hlam : ∀ u : Matrix (Fin n) (Fin 1) ℝ, lam * frob u ≤ frob (A0 * u))
    (hlam' : lam' = lam - 2 * (n - 1 : Nat) * eps * frob A0) (hpos : 0 < lam') :
    eps * lam' / 2 ≤ |st.off.get (st.end - 1)| := by
  by_contra hlt
  push Not at hlt
  have hle := hsh.le
  have h1 := h.last_diag hsh hne heps.le hlam hlam' hpos
  have hb := bigOff_real.1 (hsh.big (Ne.symm hne))
  rw [show st.end - 1 + 1 = st.end by omega] at hb
  have h2 : eps * |st.diag.get st.end| ≤
      eps * (|st.diag.get st.end| + |st.diag.get (st.end - 1)|) :=
    mul_le_mul_of_nonneg_left (by linarith [abs_nonneg (st.diag.get (st.end - 1))]) heps.le
  have h3 : eps * |st.diag.get st.end| < eps * (lam' / 2) := by linarith
  have h4 : |st.diag.get st.end| < lam' / 2 := lt_of_mul_lt_mul_left h3 heps.le
  have h5 : |st.off.get (st.end - 1)| < lam' / 2 := by
    have : eps * lam' ≤ 1 * lam' := mul_le_mul_of_nonneg_right heps1 hpos.le
    linarith
  have h6 : st.diag.get st.end ^ 2 < (lam' / 2) ^ 2 := sq_lt_sq' (by linarith [neg_abs_le (st.diag.get st.end)])
    (by linarith [le_abs_self (st.diag.get st.end)])
  have h7 : st.off.get (st.end - 1) ^ 2 < (lam' / 2) ^ 2 :=
    sq_lt_sq' (by linarith [neg_abs_le (st.off.get (st.end - 1))])
      (by linarith [le_abs_self (st.off.get (st.end - 1))])
  nlinarith

theorem pot_lower {e : Nat → ℝ} {E : Nat} {δ : ℝ} (hδ : 0 ≤ δ) (h1 : δ ≤ |e (E - 1)|)
    (h2 : δ ≤ |e (E - 2)|) : δ ^ 6 ≤ pot e E := by
  have h3 : δ ^ 2 * δ ≤ |e (E - 1)| ^ 2 * |e (E - 2)| :=
    mul_le_mul (pow_le_pow_left₀ hδ h1 2) h2 hδ (by positivity)
  calc δ ^ 6 = (δ ^ 2 * δ) ^ 2 := by ring
    _ ≤ (|e (E - 1)| ^ 2 * |e (E - 2)|) ^ 2 := pow_le_pow_left₀ (by positivity) h3 2
    _ = pot e E := by
      unfold pot
      rw [sq_abs, mul_pow, mul_pow, sq_abs]

theorem pot_upper {e : Nat → ℝ} {E : Nat} {F : ℝ} (h1 : |e (E - 1)| ≤ F)
    (h2 : |e (E - 2)| ≤ F) : pot e E ≤ F ^ 6 := by
  have h3 : |e (E - 1)| ^ 2 * |e (E - 2)| ≤ F ^ 2 * F :=
    mul_le_mul (pow_le_pow_left₀ (abs_nonneg _) h1 2) h2 (abs_nonneg _) (by positivity)
  calc pot e E = (|e (E - 1)| ^ 2 * |e (E - 2)|) ^ 2 := by
        unfold pot
        rw [sq_abs, mul_pow, mul_pow, sq_abs]
    _ ≤ (F ^ 2 * F) ^ 2 := pow_le_pow_left₀ (by positivity) h3 2
    _ = F ^ 6 := by ring

/-- All entries are bounded by the norm of the given matrix. -/
theorem EigReal.pot_le {n : Nat} {A0 : Matrix (Fin n) (Fin n) ℝ} {eps : ℝ} {st : EigState ℝ}
    (h : EigReal n A0 eps st) (hsh : EigShape n eps st) :
    pot (eff st.off st.end) st.end ≤ frob A0 ^ 6 := by
  obtain ⟨⟨Q, σ, e1, e2, e3, e4⟩, -⟩ := h
  have hlt := hsh.lt
  have key : ∀ k, |eff st.off st.end k| ≤ frob A0 := by
    intro k
    by_cases hk : k < st.end
    · have := (abs_le_frob (tridiag n st.diag.get (eff st.off st.end)) ⟨k + 1, by omega⟩
        ⟨k, by omega⟩).trans e3.norm
      simpa [tridiag] using this
    · rw [eff_of_ge _ (by omega), abs_zero]; exact frob_nonneg _
  exact pot_upper (key _) (key _)

/-- The main loop ends on a well-conditioned matrix. -/
theorem EigReal.terminates {n : Nat} {A0 : Matrix (Fin n) (Fin n) ℝ} {eps lam lam' : ℝ} {st : EigState ℝ}
    (h : EigReal n A0 eps st) (hsh : EigShape n eps st) (heps : 0 < eps) (heps1 : eps ≤ 1)
    (hA0 : A0 = 0 ∨ 1 ≤ frob A0)
    (hlam : ∀ u : Matrix (Fin n) (Fin 1) ℝ, lam * frob u ≤ frob (A0 * u))
    (hlam' : lam' = lam - 2 * (n - 1 : Nat) * eps * frob A0) (hpos : 0 < lam')
    (K : Nat) (hK : frob A0 ^ 6 < (eps * lam' / 2) ^ 6 * 2 ^ K) (fuel : Nat)
    (hf : st.end * (K + 1) ≤ fuel) :
    Succeeds (eigLoop eps fuel st) (fun _ => True) := by
  have hdpos : 0 < eps * lam' / 2 := by positivity
  refine wp_conseq (eigLoop_terminates (τ := (eps * lam' / 2) ^ 6) K
    (fun st => EigShape n eps st ∧ EigReal n A0 eps st) ?_ ?_ ?_ fuel st.end K st ⟨hsh, h⟩ le_rfl
    (Or.inl (lt_of_le_of_lt (h.pot_le hsh) hK)) ?_) (fun _ _ => trivial)
  · rintro st ⟨h1, h2⟩ hne
    have := h1.le
    omega
  · rintro st ⟨h1, h2⟩
    exact lt_of_le_of_lt (h2.pot_le h1) hK
  · rintro st ⟨h1, h2⟩ hne
    refine wp_conseq (h2.stepBranch heps.le hA0 h1 hne) fun st' => ?_
    rintro ⟨h', mid, hb, hd, ds⟩
    refine ⟨h', ?_⟩
    rcases hb.progress h2 h1 hne ds with hlt | ⟨p1, p2, p3, p4⟩
    · exact Or.inl hlt
    · refine Or.inr ⟨p1, ?_, p3⟩
      have hle := h1.le
      have hne' : st'.end ≠ st'.start := by
        have := ds.lt (by omega)
        omega
      have q1 := h2.last_off h1 hne heps heps1 hlam hlam' hpos
      have q2 := h'.2.last_off h'.1 hne' heps heps1 hlam hlam' hpos
      refine pot_lower hdpos.le ?_ ?_
      · rw [eff_of_lt _ (by omega)]; exact q1
      · rw [eff_of_lt _ (by omega)]; exact q2.trans p4
  · intro hE
    obtain ⟨m, hm⟩ := Nat.exists_eq_succ_of_ne_zero hE
    rw [hm, Nat.succ_eq_add_one] at hf ⊢
    rw [Nat.add_sub_cancel]
    have : (m + 1) * (K + 1) = m * (K + 1) + (K + 1) := by ring
    omega

/-! ## Semidefinite matrices -/

/-- The quadratic form of a matrix. -/
def qf {n : Nat} (T : Matrix (Fin n) (Fin n) ℝ) (x : Fin n → ℝ) : ℝ := x ⬝ᵥ T *ᵥ x

/-- `x` vanishes outside `a..=b`. -/
def Supp {n : Nat} (a b : Nat) (x : Fin n → ℝ) : Prop :=
  ∀ i : Fin n, (i : Nat) < a ∨ b < (i : Nat) → x i = 0

theorem qf_sum {n : Nat} (T : Matrix (Fin n) (Fin n) ℝ) (x : Fin n → ℝ) :
    qf T x = ∑ i, ∑ j, x i * T i j * x j := by
  unfold qf
  simp only [dotProduct, Matrix.mulVec, Finset.mul_sum, mul_assoc]

/-- On vectors that vanish outside a segment only the segment counts. -/
theorem qf_local {n a b : Nat} {d e d' e' : Nat → ℝ} (hd : ∀ k, a ≤ k → k ≤ b → d' k = d k)
    (he : ∀ k, a ≤ k → k < b → e' k = e k) {x : Fin n → ℝ} (hx : Supp a b x) :
    qf (tridiag n d' e') x = qf (tridiag n d e) x := by
  rw [qf_sum, qf_sum]
  refine Finset.sum_congr rfl fun i _ => Finset.sum_congr rfl fun j _ => ?_
  by_cases hi : (i : Nat) < a ∨ b < (i : Nat)
  · rw [hx i hi]; ring
  · by_cases hj : (j : Nat) < a ∨ b < (j : Nat)
    · rw [hx j hj]; ring
    · congr 2
      simp only [tridiag, Matrix.of_apply]
      split_ifs
      · exact hd _ (by omega) (by omega)
      · exact he _ (by omega) (by omega)
      · exact he _ (by omega) (by omega)
      · rfl

/-- On every segment without a zero off-diagonal entry, the form (times `s`) has trace at least `c` on
every pair of orthonormal vectors. -/
def PairBound (n : Nat) (d e : Nat → ℝ) (s c : ℝ) : Prop :=
  ∀ a b, a < b → b < n → (∀ k, a ≤ k → k < b → e k ≠ 0) → ∀ x y : Fin n → ℝ, Supp a b x → Supp a b y →
    x ⬝ᵥ x = 1 → y ⬝ᵥ y = 1 → x ⬝ᵥ y = 0 →
      c ≤ s * (qf (tridiag n d e) x + qf (tridiag n d e) y)

/-- Zeroing off-diagonal entries keeps the bound. -/
theorem PairBound.mono {n : Nat} {d e e' : Nat → ℝ} {s c : ℝ} (h : PairBound n d e s c)
    (he : ∀ k, e' k = e k ∨ e' k = 0) : PairBound n d e' s c := by
  intro a b hab hb hne x y hx hy h1 h2 h3
  have hee : ∀ k, a ≤ k → k < b → e' k = e k := fun k k1 k2 => (he k).resolve_right (hne k k1 k2)
  rw [qf_local (fun _ _ _ => rfl) hee hx, qf_local (fun _ _ _ => rfl) hee hy]
  exact h a b hab hb (fun k k1 k2 => by rw [← hee k k1 k2]; exact hne k k1 k2) x y hx hy h1 h2 h3

theorem qf_conj {n : Nat} {W T T' : Matrix (Fin n) (Fin n) ℝ} (h : W * T * Wᵀ = T') (x : Fin n → ℝ) :
    qf T' x = qf T (Wᵀ *ᵥ x) := by
  unfold qf
  rw [← h, ← Matrix.mulVec_mulVec, ← Matrix.mulVec_mulVec, Matrix.dotProduct_mulVec x W,
    ← Matrix.mulVec_transpose]

theorem dot_conj {n : Nat} {W : Matrix (Fin n) (Fin n) ℝ} (h : W * Wᵀ = 1) (x y : Fin n → ℝ) :
    (Wᵀ *ᵥ x) ⬝ᵥ (Wᵀ *ᵥ y) = x ⬝ᵥ y := by
  rw [Matrix.dotProduct_mulVec, Matrix.vecMul_transpose, Matrix.mulVec_mulVec, h, Matrix.one_mulVec]

/-- One branch of the loop body keeps the bound. -/
theorem EigBranch.pairBound {n : Nat} {A0 : Matrix (Fin n) (Fin n) ℝ} {eps s c : ℝ} {st mid : EigState ℝ}
    (h : EigReal n A0 eps st) (hsh : EigShape n eps st) (hb : EigBranch n st mid)
    (hp : PairBound n st.diag.get (eff st.off st.end) s c) :
    PairBound n mid.diag.get (eff mid.off mid.end) s c := by
  have hlt := hsh.lt
  cases hb with
  | two hs he ho hd =>
    intro a b hab hbn hne x y hx hy h1 h2 h3
    have hb1 : b ≤ st.start := by
      by_contra hbs
      have := hne (b - 1) (by omega) (by omega)
      rw [eff_of_ge _ (by omega)] at this
      exact this rfl
    have hb2 : b < st.start := by
      rcases Nat.lt_or_ge b st.start with h' | h'
      · exact h'
      · exfalso
        have := hne (st.start - 1) (by omega) (by omega)
        rw [eff_of_lt _ (by omega), ho, h.start0 (by omega)] at this
        exact this rfl
    have hdd : ∀ k, a ≤ k → k ≤ b → mid.diag.get k = st.diag.get k :=
      fun k k1 k2 => hd k (by omega) (by omega)
    have hee : ∀ k, a ≤ k → k < b → eff mid.off mid.end k = eff st.off st.end k := by
      intro k k1 k2
      rw [eff_of_lt _ (by omega), eff_of_lt _ (by omega), ho]
    rw [qf_local hdd hee hx, qf_local hdd hee hy]
    exact hp a b hab hbn (fun k k1 k2 => by rw [← hee k k1 k2]; exact hne k k1 k2) x y hx hy h1 h2 h3
  | sweep hs he W hW hl hf =>
    have hWW : W * Wᵀ = 1 := mul_eq_one_comm.1 hW.orth
    have hmain : PairBound n mid.diag.get (eff mid.off st.end) s c := by
      intro a b hab hbn hne x y hx hy h1 h2 h3
      have hbe : b ≤ st.end := by
        by_contra hbs
        have := hne (b - 1) (by omega) (by omega)
        rw [eff_of_ge _ (by omega)] at this
        exact this rfl
      have hcol : ∀ (z : Fin n → ℝ) (i : Fin n), (i : Nat) < st.start ∨ st.end < (i : Nat) →
          (Wᵀ *ᵥ z) i = z i := by
        intro z i hi
        simp only [Matrix.mulVec, dotProduct, Matrix.transpose_apply]
        rw [Finset.sum_eq_single i]
        · rw [ent_fin W i i, hW.out i i i.2 i.2 hi, if_pos rfl, one_mul]
        · intro j _ hj
          rw [ent_fin W j i, hW.out j i j.2 i.2 hi, if_neg (fun hh => hj (Fin.ext hh)), zero_mul]
        · simp
      rw [qf_conj hW.sim, qf_conj hW.sim]
      rw [← dot_conj hWW] at h1 h2 h3
      by_cases has : st.start ≤ a
      · refine hp st.start st.end (by omega) hlt ?_ _ _ ?_ ?_ h1 h2 h3
        · intro k k1 k2
          rw [eff_of_lt _ k2]; exact h.block k k1 k2
        · intro i hi
          rw [hcol x i hi]; exact hx i (by omega)
        · intro i hi
          rw [hcol y i hi]; exact hy i (by omega)
      · have hbs : b < st.start := by
          rcases Nat.lt_or_ge b st.start with h' | h'
          · exact h'
          · exfalso
            have := hne (st.start - 1) (by omega) (by omega)
            rw [eff_of_lt _ (by omega), hf _ (Or.inl (by omega)), h.start0 (by omega)] at this
            exact this rfl
        have hsupp : ∀ z : Fin n → ℝ, Supp a b z → Supp a b (Wᵀ *ᵥ z) := by
          intro z hz i hi
          by_cases hi' : (i : Nat) < st.start ∨ st.end < (i : Nat)
          · rw [hcol z i hi']; exact hz i hi
          · simp only [Matrix.mulVec, dotProduct, Matrix.transpose_apply]
            refine Finset.sum_eq_zero fun j _ => ?_
            by_cases hj : (j : Nat) < a ∨ b < (j : Nat)
            · rw [hz j hj, mul_zero]
            · rw [ent_fin W j i, hl j i j.2 i.2 (by omega), if_neg (by omega), zero_mul]
        refine hp a b hab hbn ?_ _ _ (hsupp x hx) (hsupp y hy) h1 h2 h3
        intro k k1 k2
        have := hne k k1 k2
        rw [eff_of_lt _ (by omega), hf _ (Or.inl (by omega))] at this
        rw [eff_of_lt _ (by omega)]; exact this
    refine hmain.mono fun k => ?_
    by_cases hk : k < mid.end
    · left; rw [eff_of_lt _ hk, eff_of_lt _ (by omega)]
    · right; exact eff_of_ge _ (by omega)

theorem DelimSpec.pairBound {n : Nat} {eps s c : ℝ} {mid st : EigState ℝ} (hd : st.diag = mid.diag)
    (ds : DelimSpec mid.diag mid.off eps mid.end st.off st.start st.end)
    (hp : PairBound n mid.diag.get (eff mid.off mid.end) s c) :
    PairBound n st.diag.get (eff st.off st.end) s c := by
  rw [hd]
  refine hp.mono fun k => ?_
  have := ds.le
  by_cases hk : k < st.end
  · rw [eff_of_lt _ hk, eff_of_lt _ (by omega), ds.get]
    split_ifs
    · exact Or.inr rfl
    · exact Or.inl rfl
  · exact Or.inr (eff_of_ge _ (by omega))

theorem DelimSpec.blockBig {eps : ℝ} (heps : 0 ≤ eps) {mid st : EigState ℝ} (hd : st.diag = mid.diag)
    (ds : DelimSpec mid.diag mid.off eps mid.end st.off st.start st.end) (k : Nat)
    (h1 : st.start ≤ k) (h2 : k < st.end) :
    eps * (|st.diag.get (k + 1)| + |st.diag.get k|) < |st.off.get k| := by
  rw [ds.get, if_neg (by omega), hd]
  by_cases hk : k = st.end - 1
  · rw [hk]
    exact bigOff_real.1 (ds.big (by omega))
  · have := ds.block k h1 (by omega)
    by_contra hlt
    push Not at hlt
    rw [(smallOff_real heps).2 hlt] at this
    exact absurd this (by simp)

/-- The sum of two neighbouring diagonal entries of an unreduced segment. -/
theorem PairBound.diag {n : Nat} {d e : Nat → ℝ} {s c : ℝ} (h : PairBound n d e s c) (hs : |s| = 1)
    {k : Nat} (hk : k + 1 < n) (he : e k ≠ 0) : c ≤ |d (k + 1)| + |d k| := by
  have key : ∀ m (hm : m < n), qf (tridiag n d e) (Pi.single ⟨m, hm⟩ 1) = d m := by
    intro m hm
    unfold qf
    rw [Matrix.mulVec_single_one, single_one_dotProduct]
    simp [tridiag]
  have h1 := h k (k + 1) (by omega) hk (fun j j1 j2 => by rw [show j = k by omega]; exact he)
    (Pi.single ⟨k, by omega⟩ 1) (Pi.single ⟨k + 1, hk⟩ 1) ?_ ?_ ?_ ?_ ?_
  · rw [key, key] at h1
    calc c ≤ |s * (d k + d (k + 1))| := h1.trans (le_abs_self _)
      _ = |d k + d (k + 1)| := by rw [abs_mul, hs, one_mul]
      _ ≤ |d k| + |d (k + 1)| := abs_add_le _ _
      _ = _ := add_comm _ _
  · intro i hi
    exact Pi.single_eq_of_ne (fun hh => by rw [hh] at hi; simp only at hi; omega) _
  · intro i hi
    exact Pi.single_eq_of_ne (fun hh => by rw [hh] at hi; simp only at hi; omega) _
  · simp
  · simp
  · rw [single_one_dotProduct]
    exact Pi.single_eq_of_ne (fun hh => by rw [Fin.mk.injEq] at hh; omega) _

/-- The invariant of the main loop for semidefinite matrices. -/
structure EigSemi (n : Nat) (A0 : Matrix (Fin n) (Fin n) ℝ) (eps s c : ℝ) (st : EigState ℝ) : Prop where
  shape : EigShape n eps st
  real : EigReal n A0 eps st
  pair : PairBound n st.diag.get (eff st.off st.end) s c
  big : ∀ k, st.start ≤ k → k < st.end → eps * (|st.diag.get (k + 1)| + |st.diag.get k|) < |st.off.get k|

/-- The main loop ends on a semidefinite matrix. -/
theorem EigSemi.terminates {n : Nat} {A0 : Matrix (Fin n) (Fin n) ℝ} {eps s c : ℝ} {st : EigState ℝ}
    (h : EigSemi n A0 eps s c st) (heps : 0 < eps) (hs : |s| = 1) (hc : 0 < c)
    (hA0 : A0 = 0 ∨ 1 ≤ frob A0)
    (K : Nat) (hK : frob A0 ^ 6 < (eps * c) ^ 6 * 2 ^ K) (fuel : Nat)
    (hf : st.end * (K + 1) ≤ fuel) :
    Succeeds (eigLoop eps fuel st) (fun _ => True) := by
  have hdpos : 0 < eps * c := by positivity
  refine wp_conseq (eigLoop_terminates (τ := (eps * c) ^ 6) K
    (EigSemi n A0 eps s c) ?_ ?_ ?_ fuel st.end K st h le_rfl
    (Or.inl (lt_of_le_of_lt (h.real.pot_le h.shape) hK)) ?_) (fun _ _ => trivial)
  · intro st h hne
    have := h.shape.le
    omega
  · intro st h
    exact lt_of_le_of_lt (h.real.pot_le h.shape) hK
  · intro st h hne
    refine wp_conseq (h.real.stepBranch heps.le hA0 h.shape hne) fun st' => ?_
    rintro ⟨h', mid, hb, hd, ds⟩
    refine ⟨⟨h'.1, h'.2, ds.pairBound hd (hb.pairBound h.real h.shape h.pair),
      ds.blockBig heps.le hd⟩, ?_⟩
    rcases hb.progress h.real h.shape hne ds with hlt | ⟨p1, p2, p3, p4⟩
    · exact Or.inl hlt
    · refine Or.inr ⟨p1, ?_, p3⟩
      have hlt := h.shape.lt
      have key : ∀ k, st.start ≤ k → k < st.end → eps * c ≤ |eff st.off st.end k| := by
        intro k k1 k2
        rw [eff_of_lt _ k2]
        refine le_trans (mul_le_mul_of_nonneg_left ?_ heps.le) (h.big k k1 k2).le
        exact h.pair.diag hs (by omega) (by rw [eff_of_lt _ k2]; exact h.real.block k k1 k2)
      exact pot_lower hdpos.le (key _ (by omega) (by omega)) (key _ (by omega) (by omega))
  · intro hE
    obtain ⟨m, hm⟩ := Nat.exists_eq_succ_of_ne_zero hE
    rw [hm, Nat.succ_eq_add_one] at hf ⊢
    rw [Nat.add_sub_cancel]
    have : (m + 1) * (K + 1) = m * (K + 1) + (K + 1) := by ring
    omega

/-! ## A positive bound exists for every semidefinite tridiagonal matrix -/

/-- A kernel vector of an unreduced segment is determined by its first entry. -/
theorem tridiag_ker {n a b : Nat} {d e : Nat → ℝ}
    (hne : ∀ k, a ≤ k → k < b → e k ≠ 0) {x : Fin n → ℝ} (hx : Supp a b x)
    (hT : tridiag n d e *ᵥ x = 0) (h0 : ∀ h : a < n, x ⟨a, h⟩ = 0) : x = 0 := by
  set X : Matrix (Fin n) (Fin 1) ℝ := Matrix.of fun i _ => x i with hX
  have hTX : tridiag n d e * X = 0 := by
    ext i j
    have := congrFun hT i
    simpa [Matrix.mul_apply, Matrix.mulVec, dotProduct, hX] using this
  have hent : ∀ k (hk : k < n), ent X k 0 = x ⟨k, hk⟩ := fun k hk => by
    rw [ent_of X hk (by omega)]; rfl
  have key : ∀ k, k < n → ent X k 0 = 0 := by
    intro k
    induction k using Nat.strong_induction_on with
    | _ k ih =>
      intro hk
      rw [hent k hk]
      by_cases hout : k < a ∨ b < k
      · exact hx ⟨k, hk⟩ hout
      · by_cases hka : k = a
        · subst hka; exact h0 hk
        · obtain ⟨j, rfl⟩ : ∃ j, k = j + 1 := ⟨k - 1, by omega⟩
          have hrow := congrArg (fun Y => ent Y j 0) hTX
          rw [ent_tridiag_mul X d e (by omega) (by omega)] at hrow
          have z1 : (if j = 0 then 0 else e (j - 1) * ent X (j - 1) 0) = 0 := by
            split_ifs with hj
            · rfl
            · rw [ih (j - 1) (by omega) (by omega), mul_zero]
          have z2 : ent (0 : Matrix (Fin n) (Fin 1) ℝ) j 0 = 0 := by
            rw [ent_of _ (by omega) (by omega)]; rfl
          rw [z1, z2, ih j (by omega) (by omega), hent (j + 1) hk] at hrow
          have : e j * x ⟨j + 1, hk⟩ = 0 := by linarith
          exact (mul_eq_zero.1 this).resolve_left (hne j (by omega) (by omega))
  funext i
  rw [← hent i i.2, key i i.2]; rfl

theorem qf_continuous {n : Nat} (T : Matrix (Fin n) (Fin n) ℝ) : Continuous (qf T) := by
  have : qf T = fun x => ∑ i, ∑ j, x i * T i j * x j := funext (qf_sum T)
  rw [this]
  fun_prop

theorem dot_self_nonneg {n : Nat} (x : Fin n → ℝ) : 0 ≤ x ⬝ᵥ x :=
  Finset.sum_nonneg fun _ _ => mul_self_nonneg _

/-- Orthonormal pairs form a compact set. -/
theorem pairs_compact (n a b : Nat) : IsCompact {p : (Fin n → ℝ) × (Fin n → ℝ) |
    Supp a b p.1 ∧ Supp a b p.2 ∧ p.1 ⬝ᵥ p.1 = 1 ∧ p.2 ⬝ᵥ p.2 = 1 ∧ p.1 ⬝ᵥ p.2 = 0} := by
  refine Metric.isCompact_of_isClosed_isBounded ?_ ?_
  · have c1 : ∀ i, Continuous fun p : (Fin n → ℝ) × (Fin n → ℝ) => p.1 i := fun i => by fun_prop
    have c2 : ∀ i, Continuous fun p : (Fin n → ℝ) × (Fin n → ℝ) => p.2 i := fun i => by fun_prop
    simp only [Set.ofPred_and, Supp, Set.ofPred_forall, dotProduct]
    refine IsClosed.inter ?_ (IsClosed.inter ?_ (IsClosed.inter ?_ (IsClosed.inter ?_ ?_)))
    · exact isClosed_iInter fun i => isClosed_iInter fun _ => isClosed_eq (c1 i) continuous_const
    · exact isClosed_iInter fun i => isClosed_iInter fun _ => isClosed_eq (c2 i) continuous_const
    · exact isClosed_eq (by fun_prop) continuous_const
    · exact isClosed_eq (by fun_prop) continuous_const
    · exact isClosed_eq (by fun_prop) continuous_const
  · refine (Metric.isBounded_iff_subset_closedBall 0).2 ⟨1, ?_⟩
    have hle : ∀ z : Fin n → ℝ, z ⬝ᵥ z = 1 → ‖z‖ ≤ 1 := by
      intro z hz
      refine (pi_norm_le_iff_of_nonneg zero_le_one).2 fun i => ?_
      rw [Real.norm_eq_abs]
      refine (sq_le_one_iff_abs_le_one _).1 ?_
      rw [← hz, sq]
      exact Finset.single_le_sum (f := fun i => z i * z i) (fun _ _ => mul_self_nonneg _)
        (Finset.mem_univ i)
    rintro ⟨x, y⟩ ⟨-, -, h1, h2, -⟩
    rw [Metric.mem_closedBall, dist_zero_right]
    exact max_le (hle x h1) (hle y h2)

/-- The bound on one segment. -/
theorem exists_pair_segment {n a b : Nat} {d e : Nat → ℝ} {s : ℝ} (hs : |s| = 1)
    (hne : ∀ k, a ≤ k → k < b → e k ≠ 0) (hpos : ∀ x, 0 ≤ s * qf (tridiag n d e) x) :
    ∃ c, 0 < c ∧ ∀ x y : Fin n → ℝ, Supp a b x → Supp a b y → x ⬝ᵥ x = 1 → y ⬝ᵥ y = 1 → x ⬝ᵥ y = 0 →
      c ≤ s * (qf (tridiag n d e) x + qf (tridiag n d e) y) := by
  set T := tridiag n d e with hT
  set S := {p : (Fin n → ℝ) × (Fin n → ℝ) |
    Supp a b p.1 ∧ Supp a b p.2 ∧ p.1 ⬝ᵥ p.1 = 1 ∧ p.2 ⬝ᵥ p.2 = 1 ∧ p.1 ⬝ᵥ p.2 = 0} with hS
  by_cases hemp : S.Nonempty
  · obtain ⟨⟨x, y⟩, hmem, hmin⟩ := (pairs_compact n a b).exists_isMinOn hemp
      (f := fun p => s * (qf T p.1 + qf T p.2))
      (Continuous.continuousOn (continuous_const.mul
        (((qf_continuous T).comp continuous_fst).add ((qf_continuous T).comp continuous_snd))))
    refine ⟨s * (qf T x + qf T y), ?_, ?_⟩
    · obtain ⟨sx, sy, x1, y1, xy⟩ := hmem
      simp only at sx sy x1 y1 xy
      have px := hpos x
      have py := hpos y
      rcases lt_or_eq_of_le (by rw [mul_add]; linarith : 0 ≤ s * (qf T x + qf T y)) with hlt | heq
      · exact hlt
      · exfalso
        rw [mul_add] at heq
        have hpsd : (s • T).PosSemidef := by
          refine Matrix.PosSemidef.of_dotProduct_mulVec_nonneg ?_ fun z => ?_
          · rw [Matrix.IsHermitian, Matrix.conjTranspose_eq_transpose_of_trivial,
              Matrix.transpose_smul, hT, tridiag_symm]
          · have := hpos z
            unfold qf at this
            rw [star_trivial, Matrix.smul_mulVec, dotProduct_smul]
            exact this
        have hs0 : s ≠ 0 := by
          rintro rfl
          rw [abs_zero] at hs; norm_num at hs
        have hker : ∀ z, s * qf T z = 0 → T *ᵥ z = 0 := by
          intro z hz
          have h1 : star z ⬝ᵥ (s • T) *ᵥ z = 0 := by
            rw [star_trivial, Matrix.smul_mulVec, dotProduct_smul]
            exact hz
          have h2 := (hpsd.dotProduct_mulVec_zero_iff z).1 h1
          rw [Matrix.smul_mulVec] at h2
          exact (smul_eq_zero.1 h2).resolve_left hs0
        have hTx := hker x (by linarith)
        have hTy := hker y (by linarith)
        by_cases han : a < n
        · -- a combination that vanishes at `a`
          set p := x ⟨a, han⟩ with hp
          set q := y ⟨a, han⟩ with hq
          have hz := tridiag_ker (x := q • x - p • y) hne
            (by
              intro i hi
              simp only [Pi.sub_apply, Pi.smul_apply, sx i hi, sy i hi, smul_eq_mul, mul_zero, sub_zero])
            (by rw [Matrix.mulVec_sub, Matrix.mulVec_smul, Matrix.mulVec_smul, hTx, hTy]; simp)
            (by intro h; simp only [Pi.sub_apply, Pi.smul_apply, smul_eq_mul]; rw [← hp, ← hq]; ring)
          have hzz : (q • x - p • y) ⬝ᵥ (q • x - p • y) = q * q + p * p := by
            simp only [sub_dotProduct, dotProduct_sub, smul_dotProduct, dotProduct_smul, smul_eq_mul, x1, y1,
              xy, dotProduct_comm y x]
            ring
          rw [hz, dotProduct_zero] at hzz
          have hp0 : p = 0 := by nlinarith [mul_self_nonneg p, mul_self_nonneg q]
          have hx0 := tridiag_ker (x := x) hne sx hTx (fun _ => hp0)
          rw [hx0, dotProduct_zero] at x1
          exact zero_ne_one x1
        · have hx0 : x = 0 := by
            funext i
            exact sx i (Or.inl (by have := i.2; omega))
          rw [hx0, dotProduct_zero] at x1
          exact zero_ne_one x1
    · intro x' y' h1 h2 h3 h4 h5
      exact hmin (a := (x', y')) ⟨h1, h2, h3, h4, h5⟩
  · refine ⟨1, one_pos, ?_⟩
    intro x y h1 h2 h3 h4 h5
    exact absurd ⟨(x, y), h1, h2, h3, h4, h5⟩ hemp

theorem exists_pairBound {n : Nat} {d e : Nat → ℝ} {s : ℝ} (hs : |s| = 1)
    (hpos : ∀ x, 0 ≤ s * qf (tridiag n d e) x) : ∃ c, 0 < c ∧ PairBound n d e s c := by
  classical
  have h1 : ∀ p : Nat × Nat, ∃ c, 0 < c ∧ (p.2 < n → (∀ k, p.1 ≤ k → k < p.2 → e k ≠ 0) →
      ∀ x y : Fin n → ℝ, Supp p.1 p.2 x → Supp p.1 p.2 y → x ⬝ᵥ x = 1 → y ⬝ᵥ y = 1 → x ⬝ᵥ y = 0 →
      c ≤ s * (qf (tridiag n d e) x + qf (tridiag n d e) y)) := by
    intro p
    by_cases h : p.2 < n ∧ ∀ k, p.1 ≤ k → k < p.2 → e k ≠ 0
    · obtain ⟨c, hc, h'⟩ := exists_pair_segment hs h.2 hpos
      exact ⟨c, hc, fun _ _ => h'⟩
    · exact ⟨1, one_pos, fun h2 h3 => absurd ⟨h2, h3⟩ h⟩
  choose c hc hcb using h1
  by_cases hn : n = 0
  · exact ⟨1, one_pos, fun a b _ hb => by omega⟩
  · have hne : (Finset.range n ×ˢ Finset.range n).Nonempty :=
      ⟨(0, 0), by simp; omega⟩
    refine ⟨(Finset.range n ×ˢ Finset.range n).inf' hne c, ?_, ?_⟩
    · rw [Finset.lt_inf'_iff]
      exact fun p _ => hc p
    · intro a b hab hb hz x y h1 h2 h3 h4 h5
      refine le_trans (Finset.inf'_le c (b := (a, b)) ?_) (hcb (a, b) hb hz x y h1 h2 h3 h4 h5)
      rw [Finset.mem_product, Finset.mem_range, Finset.mem_range]
      exact ⟨by simp only; omega, by simp only; omega⟩

/-! ## Before the main loop -/

/-- `symmetric_eig` returns if its main loop does, from the state in which it is entered. -/
theorem symmetricEig_enter {n : Nat} (a : Arr2 ℝ) {eps : ℝ} (heps : 0 ≤ eps)
    (ha : HasShape a n n) (hn : 1 ≤ n) (hs : (toMat n n a).IsSymm) :
    ∃ (d e : Nat → ℝ) (Q : Matrix (Fin n) (Fin n) ℝ), Qᵀ * Q = 1 ∧
      Q * tridiag n d e * Qᵀ = toMat n n (a.scaleDown a.amax) ∧
      ∀ fuel, (∀ st, EigShape n eps st → EigReal n (toMat n n (a.scaleDown a.amax)) eps st →
          st.end ≤ n - 1 →
          (∀ s c, PairBound n d e s c → EigSemi n (toMat n n (a.scaleDown a.amax)) eps s c st) →
          Succeeds (eigLoop eps fuel st) (fun _ => True)) →
        Succeeds (symmetricEig fuel a true eps) (fun _ => True) := by
  obtain ⟨s1, s2, s3, s4⟩ := scaleDown_real a ha hn hn
  have hsym : (toMat n n (a.scaleDown a.amax)).IsSymm := by
    rw [s4, Matrix.IsSymm, Matrix.transpose_smul, hs.eq]
  have hsq : a.nr = a.nc := by rw [ha.1, ha.2]
  obtain ⟨t, ht, htri⟩ := symTridiagonal_real (a.scaleDown a.amax) s1 hn hsym
  obtain ⟨Q, hQ, sQ, oQ, eQ⟩ := htri.final hn
  have e1 : tridiag n t.intoDiagonals.1.get (eff t.intoDiagonals.2 (n - 1)) =
      tridiag n (fun i => t.diagMatrix.get i i) (fun i => |t.offDiagonal.get i|) := by
    ext i j
    simp only [tridiag, Matrix.of_apply, eff]
    have := i.2
    have := j.2
    split_ifs <;> first | omega | rfl
  refine ⟨t.intoDiagonals.1.get, eff t.intoDiagonals.2 (n - 1), toMat n n Q, oQ, by rw [e1]; exact eQ, ?_⟩
  intro fuel hloop
  obtain ⟨t', ht', hsh, q, hqs, hev, hgen, h1, h2⟩ := symmetricEig_cases fuel a true eps hsq
    (by rw [ha.1]; exact hn)
  rw [ht, Except.ok.injEq] at ht'
  subst ht'
  rw [ha.1] at hsh hqs h1 h2
  obtain ⟨x, rfl⟩ := Option.isSome_iff_exists.1 hev
  have := hgen x rfl
  rw [hQ, Except.ok.injEq] at this
  subst this
  have hap : EigApx n (toMat n n (a.scaleDown a.amax)) eps t.intoDiagonals.1.get
      (eff t.intoDiagonals.2 (n - 1)) (toMat n n Q) (Equiv.refl _) := by
    have e2 : ∀ X : Matrix (Fin n) (Fin n) ℝ,
        X.submatrix (Equiv.refl (Fin n)) (Equiv.refl (Fin n)) = X := fun X => rfl
    refine ⟨oQ, ?_, ?_, Swaps.refl _ _ _, ?_⟩
    · rw [e1, e2, eQ, sub_self, frob_zero]
      have := frob_nonneg (toMat n n (a.scaleDown a.amax))
      positivity
    · rw [e1, ← eQ, frob_mul_orth (by rw [Matrix.transpose_transpose]; exact oQ), frob_orth_mul oQ]
    · rw [e1, ← eQ, Matrix.trace_mul_comm, ← Matrix.mul_assoc, oQ, Matrix.one_mul]
  by_cases hn1 : n = 1
  · rw [h1 hn1]; trivial
  · obtain ⟨off, s, e, -, ds, hei, heq⟩ := h2 hn1
    unfold Succeeds
    rw [heq, wp_bind]
    have h0 : EigReal n (toMat n n (a.scaleDown a.amax)) eps
        ⟨t.intoDiagonals.1, off, some Q, s, e⟩ := by
      refine DelimSpec.real (mid := ⟨t.intoDiagonals.1, t.intoDiagonals.2, some Q, s, n - 1⟩) heps
        ⟨by simp only; omega, Q, Equiv.refl _, rfl, sQ, hap, fun _ _ => rfl,
          Or.inl fun _ _ => rfl⟩ rfl rfl ds
    refine wp_conseq (hloop _ hei h0 ds.le ?_) (fun _ _ => trivial)
    intro s' c hp
    refine ⟨hei, h0, ?_, ?_⟩
    · exact DelimSpec.pairBound (mid := ⟨t.intoDiagonals.1, t.intoDiagonals.2, some Q, s, n - 1⟩)
        (st := ⟨t.intoDiagonals.1, off, some Q, s, e⟩) rfl ds hp
    · exact DelimSpec.blockBig (mid := ⟨t.intoDiagonals.1, t.intoDiagonals.2, some Q, s, n - 1⟩)
        (st := ⟨t.intoDiagonals.1, off, some Q, s, e⟩) heps rfl ds

end LinfaLinalg
