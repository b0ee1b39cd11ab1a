import Verif.Proofs.NaN

/-! # `svd` on matrices containing NaN -/

set_option linter.unusedSectionVars false
set_option linter.unusedSimpArgs false

namespace LinfaLinalg

variable {α : Type} [Zero α] [One α] [Add α] [Sub α] [Mul α] [Div α] [Neg α] [NdFloat α]

/-- `N` is a set of NaN-like values: absorbing for the arithmetic, and unordered. -/
structure NanLike (N : α → Prop) : Prop where
  add_l : ∀ {a b}, N a → N (a + b)
  add_r : ∀ {a b}, N b → N (a + b)
  sub_l : ∀ {a b}, N a → N (a - b)
  sub_r : ∀ {a b}, N b → N (a - b)
  mul_l : ∀ {a b}, N a → N (a * b)
  mul_r : ∀ {a b}, N b → N (a * b)
  div_l : ∀ {a b}, N a → N (a / b)
  div_r : ∀ {a b}, N b → N (a / b)
  neg : ∀ {a}, N a → N (-a)
  sqrt : ∀ {a}, N a → N (NdFloat.sqrt a)
  abs : ∀ {a}, N a → N (NdFloat.abs a)
  signum : ∀ {a}, N a → N (NdFloat.signum a)
  hypot : ∀ {a b}, N a → N b → N (NdFloat.hypot a b)
  isZero : ∀ {a}, N a → NdFloat.isZero a = false
  dot : ∀ {l p}, p ∈ l → N p.1 ∨ N p.2 → N (NdFloat.dot l)
  le_l : ∀ {a b}, N a → NdFloat.le a b = false
  le_r : ∀ {a b}, N b → NdFloat.le a b = false

namespace NanLike
variable {N : α → Prop}

theorem dotTo (hN : NanLike N) {n : Nat} {f g : Nat → α} {k : Nat} (hk : k < n) (h : N (f k) ∨ N (g k)) :
    N (dotTo n f g) :=
  hN.dot (List.mem_map.2 ⟨k, List.mem_range.2 hk, rfl⟩) h

theorem clearColumn (hN : NanLike N) (a : Arr2 α) (icol shift : Nat) (hc : icol < a.nc)
    {r : Nat} (hr : icol + shift ≤ r) (hr2 : r < a.nr) (h : N (a.get r icol)) :
    ∃ b d, clearColumn a icol shift = .ok (b, d) ∧ b.nr = a.nr ∧ b.nc = a.nc ∧ N d ∧
      ∀ i j, icol + shift ≤ i → i < a.nr → icol ≤ j → j < a.nc → N (b.get i j) := by
  unfold LinfaLinalg.clearColumn
  rw [Arr2.colSlice_ok (by omega) le_rfl hc]
  simp only [ok_bind]
  unfold reflectionAxisMut
  simp only [Arr1.dot, if_true, ok_bind]
  rw [Arr1.idx_ok (by simp only; omega)]
  simp only [ok_bind]
  rw [Arr1.idxSet_ok (by simp only; omega)]
  simp only [ok_bind]
  have hn : N (LinfaLinalg.dotTo (a.nr - (icol + shift)) (fun k => a.get (icol + shift + k) icol)
      fun k => a.get (icol + shift + k) icol) := by
    refine hN.dotTo (k := r - (icol + shift)) (by omega) (Or.inl ?_)
    rw [show icol + shift + (r - (icol + shift)) = r by omega]
    exact h
  generalize hnn : (LinfaLinalg.dotTo (a.nr - (icol + shift)) (fun k => a.get (icol + shift + k) icol)
      fun k => a.get (icol + shift + k) icol) = nn at hn ⊢
  generalize hff : a.get (icol + shift + 0) icol = ff
  have h2 : N ((nn + NdFloat.abs ff * NdFloat.sqrt nn) * NdFloat.ofRat 2) :=
    hN.mul_l (hN.add_l hn)
  rw [hN.isZero h2]
  generalize hmm : (nn + NdFloat.abs ff * NdFloat.sqrt nn) * NdFloat.ofRat 2 = mm at h2 ⊢
  simp only [Bool.not_false, if_true, ok_bind]
  rw [Arr2.slice_ok (by simp [Arr2.putCol]; omega) le_rfl (by exact hc) le_rfl]
  simp only [ok_bind]
  rw [reflectCols_eq _ _ _ (by simp [Arr1.map, Arr2.putCol, Arr1.upd])]
  simp only [ok_bind]
  refine ⟨_, _, rfl, rfl, rfl, hN.neg (hN.mul_r (hN.sqrt hn)), ?_⟩
  intro i j hi1 hi2 hj1 hj2
  unfold Arr2.put Arr2.map
  dsimp only
  split_ifs with c1 c2
  · refine hN.mul_l ?_
    unfold reflEntry
    exact hN.add_r (hN.mul_r (hN.div_r (hN.sqrt h2)))
  · exfalso
    simp only [Arr2.putCol] at c1 c2
    omega
  · simp only [Arr2.putCol] at c1
    unfold Arr2.putCol Arr1.map
    dsimp only
    split_ifs with c3
    · exact hN.div_r (hN.sqrt h2)
    · exfalso
      simp only [Arr1.upd_len] at c3
      omega

theorem clearRow (hN : NanLike N) (a : Arr2 α) (irow shift : Nat) (hc : irow < a.nr)
    {r : Nat} (hr : irow + shift ≤ r) (hr2 : r < a.nc) (h : N (a.get irow r)) :
    ∃ b d, clearRow a irow shift = .ok (b, d) ∧ b.nr = a.nr ∧ b.nc = a.nc ∧ N d ∧
      ∀ i j, irow ≤ i → i < a.nr → irow + shift ≤ j → j < a.nc → N (b.get i j) := by
  obtain ⟨b, d, e, h1, h2, h3, h4⟩ := hN.clearColumn a.t irow shift hc hr hr2 h
  refine ⟨b.t, d, ?_, h2, h1, h3, fun i j hi1 hi2 hj1 hj2 => h4 j i hj1 hj2 hi1 hi2⟩
  unfold LinfaLinalg.clearRow
  rw [e]; rfl

theorem bidiagTall (hN : NanLike N) (a : Arr2 α) (hc : 1 ≤ a.nc) (h : a.nc ≤ a.nr) {r : Nat}
    (hr : r < a.nr) (hn : N (a.get r 0)) :
    ∃ s, bidiagTall a = .ok s ∧ (∀ i, i < a.nc → N (s.2.1.get i)) ∧
      ∀ i, i < a.nc - 1 → N (s.2.2.get i) := by
  unfold LinfaLinalg.bidiagTall
  have hw : Succeeds (forRange 0 (a.nc - 1)
      (a, (Arr1.zeros a.nc : Arr1 α), (Arr1.zeros (a.nc - 1) : Arr1 α)) bidiagStep)
      (fun s => BidiagShape a.nr a.nc s ∧ (∃ r, a.nc - 1 ≤ r ∧ r < a.nr ∧ N (s.1.get r (a.nc - 1))) ∧
        (∀ i, i < a.nc - 1 → N (s.2.1.get i)) ∧ ∀ i, i < a.nc - 1 → N (s.2.2.get i)) := by
    refine wp_forRange (fun k (s : Arr2 α × Arr1 α × Arr1 α) => BidiagShape a.nr a.nc s ∧
        (∃ r, k ≤ r ∧ r < a.nr ∧ N (s.1.get r k)) ∧
        (∀ i, i < k → N (s.2.1.get i)) ∧ ∀ i, i < k → N (s.2.2.get i)) (Nat.zero_le _) ?_ ?_
    · exact ⟨⟨rfl, rfl, rfl, rfl⟩, ⟨r, Nat.zero_le _, hr, hn⟩, fun i hi => absurd hi (by omega),
        fun i hi => absurd hi (by omega)⟩
    rintro i ⟨b, d, o⟩ _ hi ⟨⟨h1, h2, h3, h4⟩, ⟨r, hr1, hr2, hr3⟩, hd, ho⟩
    simp only at h1 h2 h3 h4 hr3 hd ho
    unfold bidiagStep
    obtain ⟨b', x, e, h5, h6, hx, hb'⟩ := hN.clearColumn b i 0 (by omega) hr1 (by omega) hr3
    simp only [e, ok_bind]
    rw [Arr1.idxSet_ok (by omega)]
    simp only [ok_bind]
    obtain ⟨b'', y, e, h7, h8, hy, hb''⟩ := hN.clearRow b' i 1 (by omega) (r := i + 1) (by omega)
      (by omega) (hb' i (i + 1) (by omega) (by omega) (by omega) (by omega))
    simp only [e, ok_bind]
    rw [Arr1.idxSet_ok (by omega)]
    refine ⟨⟨by rw [h7, h5, h1], by rw [h8, h6, h2], h3, h4⟩, ⟨i + 1, le_rfl, by omega,
      hb'' _ _ (by omega) (by omega) (by omega) (by omega)⟩, ?_, ?_⟩
    · intro k hk
      simp only [Arr1.upd]
      split_ifs
      · exact hx
      · exact hd k (by omega)
    · intro k hk
      simp only [Arr1.upd]
      split_ifs
      · exact hy
      · exact ho k (by omega)
  obtain ⟨⟨b, d, o⟩, e, ⟨h1, h2, h3, h4⟩, ⟨r, hr1, hr2, hr3⟩, hd, ho⟩ := succeeds_iff.1 hw
  rw [e]
  simp only [ok_bind] at *
  obtain ⟨b', x, e, h5, h6, hx, hb'⟩ := hN.clearColumn b (a.nc - 1) 0 (by omega) hr1 (by omega) hr3
  simp only [e, ok_bind]
  rw [Arr1.idxSet_ok (by omega)]
  refine ⟨_, rfl, ?_, ho⟩
  intro k hk
  simp only [Arr1.upd]
  split_ifs
  · exact hx
  · exact hd k (by omega)

/-- All entries of both diagonals are NaN. -/
def AllN (N : α → Prop) (d : Nat) (s : SvdData α) : Prop :=
  (∀ i, i < d → N (s.diag.get i)) ∧ ∀ i, i < d - 1 → N (s.off.get i)

theorem scaleDown (hN : NanLike N) (a : Arr2 α) (m : α) {i j : Nat} (h : N (a.get i j)) :
    N ((a.scaleDown m).get i j) := by
  unfold Arr2.scaleDown
  split_ifs
  · exact h
  · exact hN.div_l h

theorem bidiagonal (hN : NanLike N) (a : Arr2 α) (h0 : min a.nr a.nc ≠ 0)
    (h : a.nc ≤ a.nr ∧ (∃ r, r < a.nr ∧ N (a.get r 0)) ∨
      a.nr < a.nc ∧ ∃ c, c < a.nc ∧ N (a.get 0 c)) :
    ∃ b, bidiagonal a = .ok b ∧ (∀ i, i < min a.nr a.nc → N (b.diagonal.get i)) ∧
      ∀ i, i < min a.nr a.nc - 1 → N (b.offDiagonal.get i) := by
  rcases h with ⟨hle, r, hr, hn⟩ | ⟨hlt, c, hc, hn⟩
  · obtain ⟨s, hs, h1, h2⟩ := hN.bidiagTall a (by omega) hle hr hn
    obtain ⟨b, hb, rfl⟩ := relM_ok_left (bidiagonal_tall a h0 hle) hs
    rw [min_eq_right hle]
    exact ⟨_, hb, h1, h2⟩
  · obtain ⟨s, hs, h1, h2⟩ := hN.bidiagTall a.t (by simp only [Arr2.t]; omega)
      (by simp only [Arr2.t]; omega) (r := c) hc hn
    obtain ⟨b, hb, rfl⟩ := relM_ok_left (bidiagonal_wide a h0 hlt) hs
    rw [min_eq_left hlt.le]
    exact ⟨_, hb, h1, h2⟩

theorem delimitEnd (hN : NanLike N) {up : Bool} {eps : α} {d m : Nat} {s : SvdData α}
    (hd : s.diag.len = d) (ho : s.off.len = d - 1) (h : AllN N d s) (hm : m + 1 < d) :
    svdDelimitEnd up eps (m + 1) s = .ok (s, m + 1) := by
  unfold svdDelimitEnd
  rw [Arr1.at_ok (by omega), Arr1.at_ok (by omega), Arr1.at_ok (by omega)]
  simp only [ok_bind]
  rw [hN.isZero (h.2 m (by omega)), hN.le_l (hN.abs (h.2 m (by omega))),
    hN.le_l (hN.abs (h.1 m (by omega))), hN.le_l (hN.abs (h.1 (m + 1) (by omega)))]
  rfl

theorem delimitStart (hN : NanLike N) {up : Bool} {eps : α} {d n m : Nat} {s : SvdData α}
    (hd : s.diag.len = d) (ho : s.off.len = d - 1) (h : AllN N d s) (hm : m < d) :
    svdDelimitStart up eps n m s = .ok (s, 0) := by
  induction m with
  | zero => rfl
  | succ m ih =>
    unfold svdDelimitStart
    rw [Arr1.at_ok (by omega), Arr1.at_ok (by omega), Arr1.at_ok (by omega)]
    simp only [ok_bind]
    rw [hN.le_l (hN.abs (h.2 m (by omega))),
      hN.le_l (hN.abs (h.1 m (by omega)))]
    exact ih (by omega)

theorem delimit (hN : NanLike N) {up : Bool} {eps : α} {d : Nat} {s : SvdData α}
    (hd : s.diag.len = d) (ho : s.off.len = d - 1) (h : AllN N d s) (h2 : 2 ≤ d) :
    svdDelimit up (d - 1) eps s = .ok (s, 0, d - 1) := by
  unfold svdDelimit
  obtain ⟨m, rfl⟩ : ∃ m, d = m + 2 := ⟨d - 2, by omega⟩
  rw [show m + 2 - 1 = m + 1 from rfl, hN.delimitEnd hd ho h (by omega)]
  simp only [ok_bind]
  rw [if_neg (by omega), Nat.add_sub_cancel, hN.delimitStart hd ho h (by omega)]
  rfl

theorem cancelY (hN : NanLike N) {x y : α} (hx : N x) (hy : N y) :
    ∃ g r, GivensRotation.cancelY x y = some (g, r) ∧ N g.c ∧ N g.s ∧ N r := by
  unfold GivensRotation.cancelY
  rw [hN.isZero hy]
  exact ⟨_, _, rfl, hN.div_l hx, hN.div_l (hN.neg hy), hN.hypot hx hy⟩

theorem wilkinson (hN : NanLike N) {a b c : α} (h : N b) : N (wilkinsonShift a b c) := by
  unfold wilkinsonShift
  split_ifs
  · exact hN.sub_l h
  · exact h

theorem sweepNext (hN : NanLike N) {up : Bool} {start n k d : Nat} {w : SvdSweep α}
    {r1 r2 : GivensRotation α} {n1 n2 : α} (hA : AllN N d w.s) (hk : k < n) (hn : n < d)
    (hc1 : N r1.c) (hs1 : N r1.s) (hn1 : N n1) (hc2 : N r2.c) (hs2 : N r2.s) (hn2 : N n2) :
    AllN N d (svdSweepNext up start n k w r1 n1 r2 n2).s ∧
      N (svdSweepNext up start n k w r1 n1 r2 n2).x ∧
      N (svdSweepNext up start n k w r1 n1 r2 n2).y := by
  refine ⟨⟨?_, ?_⟩, ?_, ?_⟩
  · intro i hi
    simp only [svdSweepNext, rotL_diag, rotR_diag, setDiags_diag, Arr1.upd]
    split_ifs
    · exact hN.add_r (hN.mul_r hc2)
    · exact hn2
    · exact hA.1 i hi
  · intro i hi
    simp only [svdSweepNext, rotL_off, rotR_off, setDiags_off]
    have hold : N (w.s.off.get i) := hA.2 i hi
    have e1 : N ((- -r1.s * w.s.diag.get k + w.s.off.get k * r1.c) * r2.c +
        -r2.s * (- -r1.s * 0 + w.s.diag.get (k + 1) * r1.c)) := hN.add_l (hN.mul_r hc2)
    have e2 : N (- -r2.s * 0 + sweepM12 n k w.s * r2.c) := hN.add_r (hN.mul_r hc2)
    split_ifs <;> simp only [Arr1.upd] <;> split_ifs <;> assumption
  · exact hN.add_l (hN.mul_r hc2)
  · exact hN.add_l (hN.mul_r hc2)

theorem svdStep (hN : NanLike N) {up cu cv : Bool} {eps : α} {r c d : Nat} {st : SvdState α}
    (hsh : SvdShape r c d cu cv st.s) (hs : st.start = 0) (he : st.end = d - 1) (hd : 3 ≤ d)
    (hA : AllN N d st.s) :
    Succeeds (svdStep up cu cv eps st) fun st' => SvdShape r c d cu cv st'.s ∧ st'.start = 0 ∧
      st'.end = d - 1 ∧ AllN N d st'.s := by
  have key := wp_svdStep (up := up) (eps := eps) (E := fun _ => False) (st := st)
    ⟨hsh, Or.inl (by omega), by omega⟩ (by omega)
    (fun st' => st'.start = 0 ∧ st'.end = d - 1 ∧ AllN N d st'.s) ?_ ?_
  · exact wp_mono key (fun st' h => ⟨h.1.shape, h.2⟩) (fun _ h => h)
  · intro hse
    refine wp_conseq (wp_svdSweep hsh hse (by omega)
      (fun k w => AllN N d w.s ∧ N w.x ∧ N w.y) (AllN N d) ?_ ?_ ?_ ?_ ?_) ?_
    · refine ⟨hA, ?_, ?_⟩
      · exact hN.sub_l (hN.mul_l (hA.1 _ (by omega)))
      · exact hN.mul_l (hA.1 _ (by omega))
    · intro k w _ _ _ hI _
      exact hI.1
    · rintro k w r1 n1 r2 n2 hk1 hk2 hw ⟨hA', hx, hy⟩ h1 h2
      obtain ⟨g1, m1, e1, hc1, hs1, hm1⟩ := hN.cancelY hx hy
      rw [h1] at e1; cases e1
      obtain ⟨g2, m2, e2, hc2, hs2, hm2⟩ := hN.cancelY (x := (sweepV k w r1).1)
        (y := (sweepV k w r1).2) (hN.add_l (hN.mul_r hc1)) (hN.add_l (hN.mul_r hc1))
      rw [h2] at e2; cases e2
      exact hN.sweepNext hA' hk2 (by omega) hc1 hs1 hm1 hc2 hs2 hm2
    · rintro k w r1 n1 hk1 hk2 hw ⟨hA', hx, hy⟩ h1 h2
      obtain ⟨g1, m1, e1, hc1, hs1, hm1⟩ := hN.cancelY hx hy
      rw [h1] at e1; cases e1
      obtain ⟨g2, m2, e2, hc2, hs2, hm2⟩ := hN.cancelY (x := (sweepV k w r1).1)
        (y := (sweepV k w r1).2) (hN.add_l (hN.mul_r hc1)) (hN.add_l (hN.mul_r hc1))
      rw [h2] at e2; cases e2
    · intro w _ hI
      exact hI.1
    · rintro st1 ⟨h1, h2, h3, h4⟩
      refine ⟨h1, h3, ?_⟩
      rw [he, hN.delimit h1.dlen h1.olen h4 (by omega)]
      exact ⟨rfl, rfl, h4⟩
  · intro hse; omega

theorem svdLoop (hN : NanLike N) {up cu cv : Bool} {eps : α} {r c d : Nat} (fuel : Nat)
    {st : SvdState α} (hsh : SvdShape r c d cu cv st.s) (hs : st.start = 0) (he : st.end = d - 1)
    (hd : 3 ≤ d) (hA : AllN N d st.s) : svdLoop up cu cv eps fuel st = .error .fuel := by
  induction fuel generalizing st with
  | zero =>
    unfold LinfaLinalg.svdLoop
    rw [if_neg (by omega)]
  | succ k ih =>
    unfold LinfaLinalg.svdLoop
    rw [if_neg (by omega)]
    obtain ⟨st', e, h1, h2, h3, h4⟩ := succeeds_iff.1 (hN.svdStep (up := up) (eps := eps) hsh hs he hd hA)
    rw [e, ok_bind]
    exact ih h1 h2 h3 h4

/-- `svd` runs forever on a matrix with at least three rows and columns which has a NaN in its first
column (first row, if it has more columns than rows) after the scaling. -/
theorem svd_forever_scaled (hN : NanLike N) (fuel : Nat) (a : Arr2 α) (cu cv : Bool)
    (hd : 3 ≤ min a.nr a.nc)
    (h : a.nc ≤ a.nr ∧ (∃ r, r < a.nr ∧ N ((a.scaleDown a.amax).get r 0)) ∨
      a.nr < a.nc ∧ ∃ c, c < a.nc ∧ N ((a.scaleDown a.amax).get 0 c)) :
    svd fuel a cu cv = .error .fuel := by
  unfold svd
  obtain ⟨b, U, Vt, hb, -, -, -, hs, he⟩ := svdGo_eq a (by omega) (by omega)
  have hsd : (a.scaleDown a.amax).nr = a.nr ∧ (a.scaleDown a.amax).nc = a.nc := by
    unfold Arr2.scaleDown
    split_ifs <;> exact ⟨rfl, rfl⟩
  obtain ⟨b', hb', h1, h2⟩ := hN.bidiagonal (a.scaleDown a.amax) (by rw [hsd.1, hsd.2]; omega) (by
    rw [hsd.1, hsd.2]
    exact h)
  rw [hb] at hb'; cases hb'
  rw [hsd.1, hsd.2] at h1 h2
  rw [he]
  have hA : AllN N (min a.nr a.nc) ⟨b.intoDiagonals.1, b.intoDiagonals.2,
      if cu then some U else none, if cv then some Vt else none⟩ :=
    ⟨fun i hi => hN.abs (h1 i hi), fun i hi => hN.abs (h2 i hi)⟩
  have hsh := hs cu cv
  rw [hN.delimit hsh.dlen hsh.olen hA (by omega)]
  simp only [ok_bind]
  rw [hN.svdLoop fuel hsh rfl rfl hd hA]
  rfl

/-- `svd` runs forever on a matrix with at least three rows and columns which has a NaN in its first
column (first row, if it has more columns than rows). -/
theorem svd_forever (hN : NanLike N) (fuel : Nat) (a : Arr2 α) (cu cv : Bool)
    (hd : 3 ≤ min a.nr a.nc)
    (h : a.nc ≤ a.nr ∧ (∃ r, r < a.nr ∧ N (a.get r 0)) ∨
      a.nr < a.nc ∧ ∃ c, c < a.nc ∧ N (a.get 0 c)) :
    svd fuel a cu cv = .error .fuel :=
  hN.svd_forever_scaled fuel a cu cv hd (h.imp (fun ⟨hl, r, hr, hn⟩ => ⟨hl, r, hr, hN.scaleDown a _ hn⟩)
    fun ⟨hl, c, hc, hn⟩ => ⟨hl, c, hc, hN.scaleDown a _ hn⟩)

end NanLike

/-- NaN propagates through every plan it occurs in. -/
theorem Flt.eval_nan {R : Rounding} (l : List (Flt R × Flt R)) (d : DotPlan) (k : Nat) (hk : k ∈ d.terms)
    (h : (l.getD k (.fin false 0, .fin false 0)).1 = .nan ∨ (l.getD k (.fin false 0, .fin false 0)).2 = .nan) :
    d.eval (.fin false 0) Flt.add Flt.mul Flt.fma l = .nan := by
  have hm : ∀ a b : Flt R, a = .nan ∨ b = .nan → Flt.mul a b = .nan := by
    rintro a b (rfl | rfl)
    · rfl
    · cases a <;> rfl
  have ha : ∀ a b : Flt R, a = .nan ∨ b = .nan → Flt.add a b = .nan := by
    rintro a b (rfl | rfl)
    · rfl
    · cases a <;> rfl
  induction d with
  | zero => simp [DotPlan.terms] at hk
  | prod j =>
    rw [DotPlan.terms, List.mem_singleton] at hk
    subst hk
    exact hm _ _ h
  | add s t ihs iht =>
    rw [DotPlan.terms, List.mem_append] at hk
    rcases hk with hk | hk
    · exact ha _ _ (Or.inl (ihs hk))
    · exact ha _ _ (Or.inr (iht hk))
  | fma s j ih =>
    have hf : ∀ a b c : Flt R, c = .nan ∨ a = .nan ∨ b = .nan → Flt.fma a b c = .nan := by
      rintro a b c (rfl | rfl | rfl)
      · cases a <;> cases b <;> first | rfl | exact ha _ _ (Or.inr rfl)
      · rfl
      · cases a <;> rfl
    rw [DotPlan.terms, List.mem_append, List.mem_singleton] at hk
    rcases hk with hk | rfl
    · exact hf _ _ _ (Or.inl (ih hk))
    · exact hf _ _ _ (Or.inr h)

theorem Flt.nanLike {R : Rounding} : NanLike (fun x : Flt R => x = .nan) where
  add_l h := by subst h; rfl
  add_r {a b} h := by subst h; cases a <;> rfl
  sub_l h := by subst h; rfl
  sub_r {a b} h := by subst h; cases a <;> rfl
  mul_l h := by subst h; rfl
  mul_r {a b} h := by subst h; cases a <;> rfl
  div_l h := by subst h; rfl
  div_r {a b} h := by subst h; cases a <;> rfl
  neg h := by subst h; rfl
  sqrt h := by subst h; rfl
  abs h := by subst h; rfl
  signum h := by subst h; rfl
  hypot h h' := by subst h; subst h'; rfl
  isZero h := by subst h; rfl
  dot {l p} hp h := by
    obtain ⟨k, hk, rfl⟩ := List.getElem_of_mem hp
    refine Flt.eval_nan l _ k ((R.plans.perm l.length).mem_iff.2 (List.mem_range.2 hk)) ?_
    simpa [List.getD, hk] using h
  le_l h := by subst h; rfl
  le_r {a b} h := by subst h; cases a <;> rfl

end LinfaLinalg
