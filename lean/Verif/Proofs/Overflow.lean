import Verif.Proofs.NaN
import Verif.Proofs.NaNSolve

/-! # Householder reflections of columns whose squares overflow -/

namespace LinfaLinalg

namespace Flt
variable {R : Rounding}

theorem inf_add_good {x : Flt R} (h : Good x) : Flt.add (inf false) x = inf false := by
  cases x with
  | nan => exact h.elim
  | inf s => cases h; rfl
  | fin s m => rfl

theorem good_add_inf {x : Flt R} (h : Good x) : Flt.add x (inf false) = inf false := by
  cases x with
  | nan => exact h.elim
  | inf s => cases h; rfl
  | fin s m => rfl

/-- The square of `x` overflows, also after adding something non-negative. -/
def SqInf (x : Flt R) : Prop := (∃ s, x = inf s) ∨ ∃ s m, x = fin s m ∧ 0 < m ∧ ∀ y, m * m ≤ y → R.rnd y = none

theorem SqInf.mul {x : Flt R} (hx : SqInf x) : Flt.mul x x = inf false := by
  rcases hx with ⟨s, rfl⟩ | ⟨s, m, rfl, -, h⟩
  · simp [Flt.mul]
  · simp [Flt.mul, round, h _ le_rfl]

theorem SqInf.fma {x y : Flt R} (hx : SqInf x) (hy : Good y) : Flt.fma x x y = inf false := by
  rcases hx with ⟨s, rfl⟩ | ⟨s, m, rfl, hm, h⟩
  · have : Flt.fma (inf s) (inf s) y = Flt.add (inf false) y := by simp [Flt.fma, Flt.mul]
    rw [this, inf_add_good hy]
  · have e : val s m * val s m = m * m := by cases s <;> simp [val, sgn]
    cases y with
    | nan => exact hy.elim
    | inf t => cases hy; rfl
    | fin t n =>
      have hn : 0 ≤ val t n := hy
      have hp : 0 < m * m := mul_pos hm hm
      show ofReal _ (val s m * val s m + val t n) = _
      rw [e, ofReal, if_neg (by linarith), abs_of_pos (by linarith), round, h _ (by linarith)]
      simp only [decide_eq_false (show ¬ m * m + val t n < 0 by linarith)]

theorem good_fma_sq {x y : Flt R} (hx : x ≠ nan) (hy : Good y) : Good (Flt.fma x x y) := by
  cases x with
  | nan => exact absurd rfl hx
  | inf s =>
    have : Flt.fma (inf s) (inf s) y = Flt.add (inf false) y := by simp [Flt.fma, Flt.mul]
    rw [this, inf_add_good hy]
    rfl
  | fin s m =>
    cases y with
    | nan => exact hy.elim
    | inf t => cases hy; rfl
    | fin t n =>
      have hn : 0 ≤ val t n := hy
      show Good (ofReal _ (val s m * val s m + val t n))
      exact good_ofReal (by have := mul_self_nonneg (val s m); linarith)

/-- A sum of squares, summed in any order, one of which overflows. -/
theorem SqInf.eval (l : List (Flt R × Flt R)) (hl : ∀ p ∈ l, p.1 = p.2 ∧ p.1 ≠ nan) (d : DotPlan) :
    Good (d.eval (fin false 0) Flt.add Flt.mul Flt.fma l) ∧
    ((∃ k ∈ d.terms, SqInf (l.getD k (fin false 0, fin false 0)).1) →
      d.eval (fin false 0) Flt.add Flt.mul Flt.fma l = inf false) := by
  have hk : ∀ k, (l.getD k (fin false 0, fin false 0)).1 = (l.getD k (fin false 0, fin false 0)).2 ∧
      (l.getD k (fin false 0, fin false 0)).1 ≠ nan := fun k => by
    by_cases h : k < l.length
    · have := hl _ (List.getElem_mem h)
      simpa [List.getD, h] using this
    · simp [List.getD, Nat.le_of_not_lt h]
  induction d with
  | zero => exact ⟨by simp [DotPlan.eval, Good, val], by simp [DotPlan.terms]⟩
  | prod k =>
    obtain ⟨e, h⟩ := hk k
    rw [DotPlan.eval, ← e]
    refine ⟨good_sq h, ?_⟩
    rintro ⟨j, hj, hs⟩
    rw [DotPlan.terms, List.mem_singleton] at hj
    subst hj
    exact hs.mul
  | add s t ihs iht =>
    refine ⟨good_add ihs.1 iht.1, ?_⟩
    rintro ⟨j, hj, hs⟩
    rw [DotPlan.terms, List.mem_append] at hj
    rw [DotPlan.eval]
    rcases hj with hj | hj
    · rw [ihs.2 ⟨j, hj, hs⟩]
      exact inf_add_good iht.1
    · rw [iht.2 ⟨j, hj, hs⟩]
      exact good_add_inf ihs.1
  | fma s k ih =>
    obtain ⟨e, h⟩ := hk k
    rw [DotPlan.eval, ← e]
    refine ⟨good_fma_sq h ih.1, ?_⟩
    rintro ⟨j, hj, hs⟩
    rw [DotPlan.terms, List.mem_append, List.mem_singleton] at hj
    rcases hj with hj | rfl
    · rw [ih.2 ⟨j, hj, hs⟩]
      generalize (l.getD k (fin false 0, fin false 0)).1 = x at h
      cases x with
      | nan => exact absurd rfl h
      | inf t => simp [Flt.fma, Flt.mul, Flt.add]
      | fin t n => rfl
    · exact hs.fma ih.1

/-- The axis found in a column whose squares overflow starts with a NaN; the stored norm is infinite. -/
theorem SqInf.reflectionAxisMut (c : Arr1 (Flt R)) {k : Nat} (hk : k < c.len)
    (h : ∀ i, i < c.len → c.get i ≠ nan) (hs : SqInf (c.get k)) :
    ∃ c' s, LinfaLinalg.reflectionAxisMut c = .ok (c', some (inf s)) ∧ c'.len = c.len ∧ c'.get 0 = nan := by
  unfold LinfaLinalg.reflectionAxisMut
  simp only [Arr1.dot, if_true, ok_bind]
  rw [Arr1.idx_ok (by omega)]
  simp only [ok_bind]
  rw [Arr1.idxSet_ok (by omega)]
  simp only [ok_bind]
  have hd : dotTo c.len c.get c.get = inf false := by
    have hl : ((List.range c.len).map fun k => (c.get k, c.get k)).length = c.len := by simp
    refine (SqInf.eval ((List.range c.len).map fun k => (c.get k, c.get k)) (fun p hp => ?_) _).2 ⟨k, ?_, ?_⟩
    · rw [List.mem_map] at hp
      obtain ⟨i, hi, rfl⟩ := hp
      exact ⟨rfl, h i (List.mem_range.1 hi)⟩
    · exact (R.plans.perm _).mem_iff.2 (List.mem_range.2 (by rw [hl]; exact hk))
    · simpa [List.getD, hk] using hs
  rw [hd]
  have h0 := h 0 (by omega)
  have h2 : (NdFloat.ofRat 2 : Flt R) = inf false ∨ ∃ m, (NdFloat.ofRat 2 : Flt R) = fin false m := by
    show Flt.ofReal false ((2 : ℚ) : ℝ) = _ ∨ ∃ m, Flt.ofReal false ((2 : ℚ) : ℝ) = _
    rw [ofReal, if_neg (by norm_num), round]
    simp only [decide_eq_false (show ¬ ((2 : ℚ) : ℝ) < 0 by norm_num)]
    cases R.rnd |((2 : ℚ) : ℝ)| with
    | none => exact Or.inl rfl
    | some y => exact Or.inr ⟨y, rfl⟩
  have key : ∀ w : Flt R, w = nan ∨ w = inf false →
      NdFloat.isZero (w * NdFloat.ofRat 2 : Flt R) = false ∧
      ∀ t, (inf t : Flt R) / NdFloat.sqrt (w * NdFloat.ofRat 2) = nan := by
    intro w hw
    have hw2 : w * NdFloat.ofRat 2 = nan ∨ w * NdFloat.ofRat 2 = (inf false : Flt R) := by
      rcases hw with rfl | rfl
      · exact Or.inl rfl
      · rcases h2 with e | ⟨m, e⟩
        · rw [e]; exact Or.inr rfl
        · rw [e]
          show Flt.mul _ _ = _ ∨ Flt.mul _ _ = _
          simp only [Flt.mul]
          split_ifs
          · exact Or.inl rfl
          · exact Or.inr rfl
    rcases hw2 with e | e <;> rw [e] <;> exact ⟨rfl, fun t => rfl⟩
  have hsq : NdFloat.sqrt (inf false : Flt R) = inf false := rfl
  obtain ⟨s, hsn, hsum⟩ : ∃ s, NdFloat.signum (c.get 0) * (inf false : Flt R) = inf s ∧ c.get 0 + (inf s : Flt R) = inf s := by
    generalize c.get 0 = x at h0
    cases x with
    | nan => exact absurd rfl h0
    | inf t =>
      refine ⟨t, ?_, ?_⟩
      · show Flt.mul (fin t 1) _ = _
        simp [Flt.mul]
      · show Flt.add _ _ = _
        simp [Flt.add]
    | fin t m =>
      refine ⟨t, ?_, rfl⟩
      show Flt.mul (fin t 1) _ = _
      simp [Flt.mul]
  have hw : (inf false + NdFloat.abs (c.get 0) * inf false : Flt R) = nan ∨
      (inf false + NdFloat.abs (c.get 0) * inf false : Flt R) = inf false := by
    generalize c.get 0 = x at h0
    show Flt.add _ (Flt.mul (Flt.abs x) _) = _ ∨ Flt.add _ (Flt.mul (Flt.abs x) _) = _
    cases x with
    | nan => exact absurd rfl h0
    | inf t => exact Or.inr rfl
    | fin t m =>
      simp only [Flt.abs, Flt.mul]
      split_ifs
      · exact Or.inl rfl
      · exact Or.inr rfl
  rw [hsq, hsn, hsum]
  obtain ⟨k1, k2⟩ := key _ hw
  rw [k1]
  refine ⟨_, !s, rfl, rfl, ?_⟩
  simp only [Arr1.map, Arr1.upd, if_true]
  exact k2 s

end Flt

open Flt in
/-- `qr` of a matrix whose first column has an entry with an overflowing square. -/
theorem qrInto_overflow {R : Rounding} (a : Arr2 (Flt R)) (hle : a.nc ≤ a.nr) (h1 : 0 < a.nc) {r : Nat} (hr : r < a.nr)
    (h : ∀ i, i < a.nr → a.get i 0 ≠ nan) (hs : SqInf (a.get r 0)) :
    ∃ q s, qrInto a = .ok q ∧ QRShape a.nr a.nc q ∧ q.diag.get 0 = inf s ∧ q.qr.get 0 0 = nan ∧
      ∀ i, 0 < i → i < a.nc → q.diag.get i = nan := by
  have hN := nanLike (R := R)
  obtain ⟨w, s, hw, hwl, hw0⟩ := SqInf.reflectionAxisMut (⟨a.nr, fun i => a.get i 0⟩ : Arr1 (Flt R)) hr h hs
  simp only at hwl
  have h00 : ∃ b, clearColumn a 0 0 = .ok (b, inf s) ∧ b.nr = a.nr ∧ b.nc = a.nc ∧ b.get 0 0 = nan ∧
      ∀ i j, i < a.nr → 0 < j → j < a.nc → b.get i j = nan := by
    unfold clearColumn
    rw [Arr2.colSlice_ok (by omega) le_rfl h1]
    simp only [ok_bind, Nat.add_zero, Nat.zero_add, Nat.sub_zero]
    rw [hw]
    simp only [ok_bind]
    rw [Arr2.slice_ok (by simp only [Arr2.putCol]; omega) le_rfl (by exact h1) le_rfl]
    simp only [ok_bind]
    rw [reflectCols_eq _ _ _ (by simpa [Arr2.putCol] using hwl)]
    refine ⟨_, rfl, rfl, rfl, ?_, fun i j hi hj hj' => ?_⟩
    · simp only [Arr2.put, Arr2.map, Arr2.putCol]
      refine (if_neg (by omega)).trans ?_
      exact (if_pos ⟨trivial, by omega, by omega⟩).trans hw0
    · simp only [Arr2.put, Arr2.map, Arr2.putCol]
      refine (if_pos (by omega)).trans (hN.mul_l ((if_pos (by omega)).trans ?_))
      unfold reflEntry
      exact hN.add_r (hN.mul_l (hN.mul_l (hN.sub_l (hN.dotTo (k := 0) (by omega) (Or.inl hw0)))))
  have hf : Succeeds (forRange 0 a.nc (a, (Arr1.zeros a.nc : Arr1 (Flt R))) fun i (a, diag) => do
      let (a, d) ← clearColumn a i 0
      let diag ← diag.idxSet i d
      .ok (a, diag))
      (fun p : Arr2 (Flt R) × Arr1 (Flt R) => p.1.nr = a.nr ∧ p.1.nc = a.nc ∧ p.2.len = a.nc ∧ p.2.get 0 = inf s ∧
        p.1.get 0 0 = nan ∧ ∀ i, 0 < i → i < a.nc → p.2.get i = nan) := by
    refine wp_conseq (wp_forRange (fun i (p : Arr2 (Flt R) × Arr1 (Flt R)) => p.1.nr = a.nr ∧ p.1.nc = a.nc ∧
      p.2.len = a.nc ∧ (i = 0 → p.1 = a) ∧ (0 < i → p.2.get 0 = inf s ∧ p.1.get 0 0 = nan ∧
        (∀ i', 0 < i' → i' < i → p.2.get i' = nan) ∧
        ∀ r c, i ≤ r → r < a.nr → i ≤ c → c < a.nc → p.1.get r c = nan))
      (Nat.zero_le _) ⟨rfl, rfl, rfl, fun _ => rfl, fun h => absurd h (lt_irrefl _)⟩ ?_) ?_
    · rintro i ⟨b, diag⟩ _ hi ⟨g1, g2, g3, g4, g5⟩
      simp only at g1 g2 g3 g4 g5
      by_cases hi0 : i = 0
      · subst hi0
        have hb := g4 rfl
        subst hb
        obtain ⟨b', e, e1, e2, e3, e4⟩ := h00
        simp only [e, ok_bind]
        rw [Arr1.idxSet_ok (by omega)]
        refine ⟨e1, e2, g3, by simp, fun _ => ⟨by simp [Arr1.upd], e3, by omega, ?_⟩⟩
        intro r c _ h7 h8 h9
        exact e4 r c h7 (by omega) h9
      · obtain ⟨g6, g7, g8, g9⟩ := g5 (by omega)
        obtain ⟨c, d, hc, e1, e2, hd, hall⟩ := hN.clearColumn b i 0 (by omega) (r := i) (by omega) (by omega)
          (g9 i i le_rfl (by omega) le_rfl (by omega))
        have hfr : c.get 0 0 = b.get 0 0 := by
          unfold clearColumn at hc
          rw [Arr2.colSlice_ok (by omega) le_rfl (by omega)] at hc
          simp only [ok_bind] at hc
          obtain ⟨w, o, hw, hl⟩ := reflectionAxisMut_ok
            (⟨b.nr - (i + 0), fun k => b.get (i + 0 + k) i⟩ : Arr1 (Flt R)) (by simp; omega)
          rw [hw] at hc
          simp only [ok_bind] at hc
          cases o with
          | none =>
            cases hc
            simp only [Arr2.putCol]
            rw [if_neg (by omega)]
          | some ν =>
            simp only at hc
            rw [Arr2.slice_ok (by simp only [Arr2.putCol]; omega) le_rfl (by simp only [Arr2.putCol]; omega) le_rfl] at hc
            simp only [ok_bind] at hc
            rw [reflectCols_eq _ _ _ (by simpa using hl)] at hc
            cases hc
            simp only [Arr2.put, Arr2.putCol]
            exact (if_neg (by omega)).trans (if_neg (by omega))
        simp only [hc, ok_bind]
        rw [Arr1.idxSet_ok (by omega)]
        refine ⟨e1.trans g1, e2.trans g2, g3, by simp, fun _ => ⟨?_, hfr.trans g7, ?_, ?_⟩⟩
        · simp only [Arr1.upd]
          rw [if_neg (by omega)]
          exact g6
        · intro i' h6 h7
          simp only [Arr1.upd]
          split_ifs with e
          · exact hd
          · exact g8 i' h6 (by omega)
        · intro r c h6 h7 h8 h9
          exact hall r c (by omega) (by omega) (by omega) (by omega)
    · rintro ⟨b, diag⟩ ⟨g1, g2, g3, -, g5⟩
      obtain ⟨g6, g7, g8, -⟩ := g5 h1
      exact ⟨g1, g2, g3, g6, g7, g8⟩
  obtain ⟨p, hp, g1, g2, g3, g4, g5, g6⟩ := succeeds_iff.1 hf
  refine ⟨⟨p.1, p.2⟩, s, ?_, ⟨g1, g2, g3⟩, g4, g5, g6⟩
  unfold qrInto
  rw [if_neg (by omega), hp]
  rfl

namespace NanLike
variable {α : Type} [Zero α] [One α] [Add α] [Sub α] [Mul α] [Div α] [Neg α] [NdFloat α] {N : α → Prop}

/-- `qt_mul` with a NaN at the head of the first axis. -/
theorem qtMul_axis (hN : NanLike N) {m n : Nat} {q : QRDecomp α} (h : QRShape m n q) (hnm : n ≤ m) (hn : 0 < n) (b : Arr2 α)
    (hb : b.nr = m) (hq : N (q.qr.get 0 0)) {c : Arr2 α} (hc : q.qtMul b = .ok c) :
    ∀ i k, i < m → k < b.nc → N (c.get i k) := by
  unfold QRDecomp.qtMul at hc
  have := succeeds_iff.1 (wp_forRange (E := fun _ => False) (hi := q.qr.nc) (s := b) (f := fun i (b : Arr2 α) => do
      let axis ← q.qr.colSlice i q.qr.nr i
      let rows ← b.slice i b.nr 0 b.nc
      let rows ← reflectCols axis 0 rows
      let d ← q.diag.idx i
      let rows := rows.map fun x => x * NdFloat.signum d
      Except.ok (b.put i 0 rows)) (fun i (c : Arr2 α) => c.nr = m ∧ c.nc = b.nc ∧
      (0 < i → ∀ i k, i < m → k < b.nc → N (c.get i k)))
    (Nat.zero_le _) ⟨hb, rfl, fun h => absurd h (lt_irrefl _)⟩ ?_)
  · obtain ⟨c', hc', -, -, h'⟩ := this
    rw [hc] at hc'
    cases hc'
    exact h' (by rw [h.nc]; exact hn)
  rintro i c _ hi ⟨h1, h2, h4⟩
  rw [h.nc] at hi
  rw [Arr2.colSlice_ok (by rw [h.nr]; omega) le_rfl (by rw [h.nc]; omega)]
  simp only [ok_bind]
  rw [Arr2.slice_ok (by omega) le_rfl (by omega) le_rfl]
  simp only [ok_bind]
  rw [reflectCols_eq _ _ _ (by simp [h1, h.nr]), Arr1.idx_ok (by rw [h.len]; exact hi)]
  simp only [ok_bind]
  refine ⟨h1, h2, fun _ i' k hi' hk => ?_⟩
  by_cases c1 : i ≤ i'
  · rw [put_get_in c _ c1 (Nat.zero_le _) (by simp only [Arr2.map]; omega) (by simp only [Arr2.map]; omega)]
    simp only [Arr2.map]
    refine hN.mul_l ?_
    rw [if_pos (by omega)]
    unfold reflEntry
    by_cases hi0 : i = 0
    · subst hi0
      refine hN.add_r (hN.mul_l (hN.mul_l (hN.sub_l (hN.dotTo (k := 0) (by simp only [h.nr]; omega) (Or.inl ?_)))))
      simpa using hq
    · refine hN.add_l ?_
      dsimp only
      rw [show i + (i' - i) = i' by omega, show 0 + (k - 0) = k by omega]
      exact h4 (by omega) i' k hi' hk
  · rw [put_get_out c _ (by omega)]
    exact h4 (by omega) i' k hi' hk

/-- `generate_q` with a NaN at the head of the first axis. -/
theorem generateQ_axis (hN : NanLike N) {m n : Nat} {q : QRDecomp α} (h : QRShape m n q) (hnm : n ≤ m) (hn : 0 < n)
    (hq : N (q.qr.get 0 0)) {c : Arr2 α} (hc : q.generateQ = .ok c) : ∀ i k, i < m → k < n → N (c.get i k) := by
  unfold QRDecomp.generateQ assembleQ at hc
  simp only at hc
  rw [if_neg (by omega)] at hc
  have := succeeds_iff.1 (wp_forRev (E := fun _ => False) (lo := 0) (hi := min q.qr.nr q.qr.nc - 0)
    (s := Arr2.eye q.qr.nr (min q.qr.nr q.qr.nc)) (f := fun i (res : Arr2 α) => do
      let axis ← q.qr.colSlice (i + 0) q.qr.nr i
      let rows ← res.slice (i + 0) res.nr i res.nc
      let rows ← reflectCols axis 0 rows
      let d ← q.diag.idx i
      let rows := rows.map fun x => x * NdFloat.signum d
      Except.ok (res.put (i + 0) i rows)) (fun i (c : Arr2 α) => c.nr = m ∧ c.nc = n ∧
      (i = 0 → ∀ i k, i < m → k < n → N (c.get i k)))
    (Nat.zero_le _) ⟨h.nr, by show min _ _ = n; rw [h.nr, h.nc]; omega, fun h0 => by rw [h.nr, h.nc] at h0; omega⟩ ?_)
  · obtain ⟨c', hc', -, -, h'⟩ := this
    rw [hc] at hc'
    cases hc'
    exact h' rfl
  rintro i c _ hi ⟨h1, h2, -⟩
  rw [h.nr, h.nc] at hi
  rw [Arr2.colSlice_ok (by rw [h.nr]; omega) le_rfl (by rw [h.nc]; omega)]
  simp only [ok_bind]
  rw [Arr2.slice_ok (by omega) le_rfl (by omega) le_rfl]
  simp only [ok_bind]
  rw [reflectCols_eq _ _ _ (by simp [h1, h.nr]), Arr1.idx_ok (by rw [h.len]; omega)]
  simp only [ok_bind]
  refine ⟨h1, h2, fun hi0 i' k hi' hk => ?_⟩
  subst hi0
  rw [put_get_in c _ (by omega) (Nat.zero_le _) (by simp only [Arr2.map]; omega) (by simp only [Arr2.map]; omega)]
  simp only [Arr2.map]
  refine hN.mul_l ?_
  rw [if_pos (by omega)]
  unfold reflEntry
  refine hN.add_r (hN.mul_l (hN.mul_l (hN.sub_l (hN.dotTo (k := 0) (by simp only [h.nr]; omega) (Or.inl ?_)))))
  simpa using hq

end NanLike

open Flt in
theorem isInvertible_overflow {R : Rounding} {m n : Nat} {q : QRDecomp (Flt R)} (hsh : QRShape m n q) {s : Bool}
    (h2 : q.diag.get 0 = inf s) (h4 : ∀ i, 0 < i → i < n → q.diag.get i = nan) : q.isInvertible = true := by
  unfold QRDecomp.isInvertible
  rw [List.all_eq_true]
  intro x hx
  unfold Arr1.toList at hx
  rw [List.mem_map] at hx
  obtain ⟨i, hi, rfl⟩ := hx
  rw [List.mem_range, hsh.len] at hi
  by_cases h0 : i = 0
  · subst h0; rw [h2]; rfl
  · rw [h4 i (by omega) hi]; rfl

open Flt in
/-- `least_squares` for a matrix whose first column has an entry with an overflowing square. -/
theorem leastSquares_overflow {R : Rounding} (a b : Arr2 (Flt R)) (hb : b.nr = a.nr) (hle : a.nc ≤ a.nr) (h1 : 0 < a.nc)
    {r : Nat} (hr : r < a.nr) (h : ∀ i, i < a.nr → a.get i 0 ≠ nan) (hs : SqInf (a.get r 0)) :
    ∃ x, leastSquares a b = .ok x ∧ HasShape x a.nc b.nc ∧ ∀ i k, i < a.nc → k < b.nc → x.get i k = nan := by
  have hN := nanLike (R := R)
  obtain ⟨q, s, hq, hsh, h2, h3, h4⟩ := qrInto_overflow a hle h1 hr h hs
  have hinv := isInvertible_overflow hsh h2 h4
  obtain ⟨c, x, hc, hc1, hc2, hsol, hx, s1, s2⟩ := (hsh.solveInto_cases hle b).2.2 hb hinv
  refine ⟨x, ?_, ⟨s1, s2⟩, fun i k hi hk => ?_⟩
  · unfold leastSquares
    rw [if_pos hle, hq, ok_bind, hx]
  · refine hN.solveSystem (a := ⟨a.nc, a.nc, q.qr.get⟩) (b := ⟨a.nc, b.nc, c.get⟩) (n := a.nc) (r := a.nc - 1) rfl rfl rfl
      (fun i hi => hsh.absDiag_ok i hi) hk (by omega) (Or.inl ?_) hsol i hi (by simp only [NanLike.After]; omega)
    exact hN.qtMul_axis hsh hle h1 b hb h3 hc _ _ (by omega) hk

open Flt in
/-- `least_squares` for a matrix with more columns than rows whose first row has an entry with an overflowing square. -/
theorem leastSquares_overflow_wide {R : Rounding} (a b : Arr2 (Flt R)) (hb : b.nr = a.nr) (hlt : a.nr < a.nc) (h1 : 0 < a.nr)
    {r : Nat} (hr : r < a.nc) (h : ∀ i, i < a.nc → a.get 0 i ≠ nan) (hs : SqInf (a.get 0 r)) :
    ∃ x, leastSquares a b = .ok x ∧ HasShape x a.nc b.nc ∧ ∀ i k, i < a.nc → k < b.nc → x.get i k = nan := by
  have hN := nanLike (R := R)
  have hle : a.t.nc ≤ a.t.nr := by simp only [Arr2.t]; omega
  obtain ⟨q, s, hq, hsh, h2, h3, h4⟩ := qrInto_overflow a.t hle h1 (r := r) hr h hs
  have hinv := isInvertible_overflow hsh h2 h4
  obtain ⟨y, Q, x, hsol, hQ, hQ1, hQ2, hdot, hx, s1, s2⟩ := (hsh.solveTrInto_cases hle b).2.2 hb hinv
  refine ⟨x, ?_, ⟨s1, s2⟩, fun i k hi hk => ?_⟩
  · unfold leastSquares
    rw [if_neg (by omega), hq, ok_bind, hx]
  · have hQn := hN.generateQ_axis hsh hle h1 h3 hQ
    unfold Arr2.dot at hdot
    split_ifs at hdot with hd
    injection hdot with hdot
    subst hdot
    exact hN.dotTo (k := 0) (by rw [hQ2]; exact h1) (Or.inl (hQn i 0 hi h1))

end LinfaLinalg
