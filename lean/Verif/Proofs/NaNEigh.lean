import Verif.Proofs.NaNSolve
import Verif.Proofs.Eigh

/-! # NaN in the tridiagonalisation and in `eigh` -/

set_option linter.unusedSectionVars false

namespace LinfaLinalg

variable {α : Type} [Zero α] [One α] [Add α] [Sub α] [Mul α] [Div α] [Neg α] [NdFloat α]

namespace NanLike
variable {N : α → Prop}

theorem reflectionAxisMut (hN : NanLike N) (v : Arr1 α) {k : Nat} (hk : k < v.len) (h : N (v.get k)) :
    ∃ w d, reflectionAxisMut v = .ok (w, some d) ∧ w.len = v.len ∧ (∀ i, N (w.get i)) ∧ N d := by
  unfold LinfaLinalg.reflectionAxisMut
  simp only [Arr1.dot, if_true, ok_bind]
  rw [Arr1.idx_ok (by omega)]
  simp only [ok_bind]
  rw [Arr1.idxSet_ok (by omega)]
  simp only [ok_bind]
  have hn : N (LinfaLinalg.dotTo v.len v.get v.get) := hN.dotTo hk (Or.inl h)
  generalize hnn : LinfaLinalg.dotTo v.len v.get v.get = nn at hn ⊢
  have h2 : N ((nn + NdFloat.abs (v.get 0) * NdFloat.sqrt nn) * NdFloat.ofRat 2) :=
    hN.mul_l (hN.add_l hn)
  rw [hN.isZero h2]
  simp only [Bool.not_false, if_true]
  exact ⟨_, _, rfl, rfl, fun i => hN.div_r (hN.sqrt h2), hN.neg (hN.mul_r (hN.sqrt hn))⟩

/-- A NaN below the diagonal in column `i`. -/
def ColNan (N : α → Prop) (n i : Nat) (a : Arr2 α) : Prop := ∃ r, i < r ∧ r < n ∧ N (a.get r i)

/-- One step of `sym_tridiagonal`: the diagonal up to `i` is left alone, NaNs of the trailing block stay, and
a NaN in the column spreads over the whole trailing block. -/
theorem tridiagStep (hN : NanLike N) {n : Nat} (i : Nat) (a : Arr2 α) (off p : Arr1 α) (hi : i < n - 1)
    (h1 : a.nr = n) (h2 : a.nc = n) (h3 : off.len = n - 1) (h4 : p.len = n - 1) :
    ∃ b off' p', tridiagStep i a off p = .ok (b, off', p') ∧ b.nr = n ∧ b.nc = n ∧
      off'.len = n - 1 ∧ p'.len = n - 1 ∧ (∀ j, j ≤ i → b.get j j = a.get j j) ∧
      (∀ r c, i < r → r < n → i < c → c < n → N (a.get r c) → N (b.get r c)) ∧
      (∀ k, k ≠ i → off'.get k = off.get k) ∧
      (ColNan N n i a → N (off'.get i) ∧
        ∀ r c, i < r → r < n → i < c → c < n → N (b.get r c)) := by
  unfold LinfaLinalg.tridiagStep
  rw [Arr2.colSlice_ok (by omega) le_rfl (by omega)]
  simp only [ok_bind]
  rw [Arr2.slice_ok (by omega) le_rfl (by omega) le_rfl]
  simp only [ok_bind]
  have hax : ∃ w o, LinfaLinalg.reflectionAxisMut (⟨a.nr - (i + 1), fun k => a.get (i + 1 + k) i⟩ : Arr1 α) = .ok (w, o) ∧
      w.len = a.nr - (i + 1) ∧ (ColNan N n i a → (∀ k, N (w.get k)) ∧ ∃ d, o = some d ∧ N d) := by
    by_cases hr : ColNan N n i a
    · obtain ⟨r, hr1, hr2, h⟩ := hr
      obtain ⟨w, d, hw, hl, hall, hd⟩ := hN.reflectionAxisMut (⟨a.nr - (i + 1), fun k => a.get (i + 1 + k) i⟩ : Arr1 α)
        (k := r - (i + 1)) (by simp only; omega) (by
          dsimp only
          rw [show i + 1 + (r - (i + 1)) = r by omega]; exact h)
      exact ⟨w, some d, hw, hl, fun _ => ⟨hall, d, rfl, hd⟩⟩
    · obtain ⟨w, o, hw, hl⟩ := reflectionAxisMut_ok
        (⟨a.nr - (i + 1), fun k => a.get (i + 1 + k) i⟩ : Arr1 α) (by simp; omega)
      exact ⟨w, o, hw, hl, fun h => absurd h hr⟩
  obtain ⟨w, o, hw, hl, hnan⟩ := hax
  rw [hw]
  simp only [ok_bind]
  rw [Arr1.idxSet_ok (by omega)]
  simp only [ok_bind]
  cases o with
  | none =>
    refine ⟨_, _, _, rfl, h1, h2, h3, h4, fun j hj => ?_, fun r c hr hr2 hc hc2 h => ?_, fun k hk => ?_, fun h => ?_⟩
    · simp only [Arr2.putCol]; rw [if_neg (by omega)]
    · simp only [Arr2.putCol]; rw [if_neg (by omega)]; exact h
    · simp only [Arr1.upd]; rw [if_neg hk]
    · obtain ⟨-, d, h, -⟩ := hnan h
      cases h
  | some ν =>
    simp only [Option.isSome_some, if_true]
    rw [Arr1.slice_ok (by omega) le_rfl]
    simp only [ok_bind]
    rw [matVecMul_ok (by simp only; omega) (by simp only; omega)]
    simp only [ok_bind]
    rw [Arr1.dot_ok (by simp only; omega)]
    simp only [ok_bind]
    rw [rankOneUpdate_ok (by simp only; omega) (by simp only; omega)]
    simp only [ok_bind]
    rw [rankOneUpdate_ok (by simp only; omega) (by simp only; omega)]
    simp only [ok_bind]
    rw [rankOneUpdate_ok (by simp only; omega) (by simp only; omega)]
    simp only [ok_bind]
    refine ⟨_, _, _, rfl, h1, h2, h3, h4, fun j hj => ?_, fun r c hr hr2 hc hc2 h => ?_, fun k hk => ?_, fun h => ⟨?_, ?_⟩⟩
    · simp only [Arr2.put, Arr2.putCol]; rw [if_neg (by omega), if_neg (by omega)]
    · rw [put_get_in _ _ (by omega) (by omega) (by simp only; omega) (by simp only; omega)]
      refine hN.add_l (hN.add_l (hN.add_l ?_))
      rw [show i + 1 + (r - (i + 1)) = r by omega, show i + 1 + (c - (i + 1)) = c by omega]
      exact h
    · simp only [Arr1.upd]; rw [if_neg hk]
    · obtain ⟨-, d, hd, hd'⟩ := hnan h
      cases hd
      simpa [Arr1.upd] using hd'
    · intro r c hr hr2 hc hc2
      rw [put_get_in _ _ (by omega) (by omega) (by simp only; omega) (by simp only; omega)]
      exact hN.add_r (hN.mul_r (hN.mul_l ((hnan h).1 _)))

/-- A NaN in the lower triangle reaches the diagonal of the tridiagonal matrix. -/
theorem symTridiagonal (hN : NanLike N) (a : Arr2 α) (hs : a.nr = a.nc) {r c : Nat} (hr : r < a.nr) (hcr : c ≤ r)
    (h : N (a.get r c)) :
    ∃ t, symTridiagonal a = .ok t ∧ TriShape a.nr t ∧ (∃ j, j < a.nr ∧ N (t.diagMatrix.get j j)) ∧
      (c = 0 → 0 < r → (∀ j, 0 < j → j < a.nr → N (t.diagMatrix.get j j)) ∧
        ∀ k, k < a.nr - 1 → N (t.offDiagonal.get k)) := by
  have hw : Succeeds (forRange 0 (a.nr - 1)
      (a, (Arr1.zeros (a.nr - 1) : Arr1 α), (Arr1.zeros (a.nr - 1) : Arr1 α))
      fun i (a, off, p) => LinfaLinalg.tridiagStep i a off p)
      (fun s : Arr2 α × Arr1 α × Arr1 α => (s.1.nr = a.nr ∧ s.1.nc = a.nr ∧ s.2.1.len = a.nr - 1) ∧
        (∃ j, j < a.nr ∧ N (s.1.get j j)) ∧ (c = 0 → 0 < r → (∀ j, 0 < j → j < a.nr → N (s.1.get j j)) ∧
        ∀ k, k < a.nr - 1 → N (s.2.1.get k))) := by
    refine wp_conseq (wp_forRange (fun i (s : Arr2 α × Arr1 α × Arr1 α) =>
      (s.1.nr = a.nr ∧ s.1.nc = a.nr ∧ s.2.1.len = a.nr - 1 ∧ s.2.2.len = a.nr - 1) ∧
      (∃ r c, r < a.nr ∧ c ≤ r ∧ N (s.1.get r c) ∧ (i ≤ c ∨ r = c)) ∧
      (c = 0 → 0 < r → (i < a.nr - 1 → ColNan N a.nr i s.1) ∧
        (0 < i → (∀ j, 0 < j → j ≤ i → N (s.1.get j j)) ∧ ∀ k, k < i → N (s.2.1.get k))))
      (Nat.zero_le _) ⟨⟨rfl, hs.symm, rfl, rfl⟩, ⟨r, c, hr, hcr, h, Or.inl (Nat.zero_le _)⟩, ?_⟩ ?_) ?_
    · intro hc hr0
      subst hc
      exact ⟨fun _ => ⟨r, hr0, hr, h⟩, fun h => absurd h (lt_irrefl _)⟩
    · rintro i ⟨b, off, p⟩ _ hi ⟨⟨h1, h2, h3, h4⟩, ⟨r', c', hr', hcr', hn, hcase⟩, hfirst⟩
      obtain ⟨b', off', p', hb, g1, g2, g3, g4, gdiag, gkeep, goff, gspread⟩ := hN.tridiagStep i b off p hi h1 h2 h3 h4
      refine wp_of_ok hb ⟨⟨g1, g2, g3, g4⟩, ?_, fun hc0 hr0 => ?_⟩
      · by_cases hc : i < c'
        · have hx := gkeep r' c' (by omega) hr' hc (by omega) hn
          exact ⟨r', c', hr', hcr', hx, Or.inl (by omega)⟩
        · by_cases hrc : r' = c'
          · subst hrc
            exact ⟨r', r', hr', le_rfl, by simp only; rw [gdiag r' (by omega)]; exact hn, Or.inr rfl⟩
          · have hci : c' = i := by omega
            have hlt : i < r' := by omega
            have hi1 : i + 1 < a.nr := by omega
            rw [hci] at hn
            have hx := (gspread ⟨r', hlt, hr', hn⟩).2 (i + 1) (i + 1) (Nat.lt_succ_self i) hi1 (Nat.lt_succ_self i) hi1
            exact ⟨i + 1, i + 1, hi1, le_rfl, hx, Or.inr rfl⟩
      · obtain ⟨f1, f2⟩ := hfirst hc0 hr0
        obtain ⟨s1, s2⟩ := gspread (f1 hi)
        refine ⟨fun hi' => ⟨i + 2, by omega, by omega, s2 _ _ (by omega) (by omega) (by omega) (by omega)⟩, fun _ => ⟨fun j hj hj' => ?_, fun k hk => ?_⟩⟩
        · by_cases hji : j = i + 1
          · exact s2 j j (by omega) (by omega) (by omega) (by omega)
          · simp only
            rw [gdiag j (by omega)]
            exact (f2 (by omega)).1 j hj (by omega)
        · by_cases hki : k = i
          · subst hki; exact s1
          · simp only
            rw [goff k hki]
            exact (f2 (by omega)).2 k (by omega)
    · rintro ⟨b, off, p⟩ ⟨⟨h1, h2, h3, -⟩, ⟨r', c', hr', hcr', hn, hcase⟩, hfirst⟩
      refine ⟨⟨h1, h2, h3⟩, ⟨c', by omega, ?_⟩, fun hc0 hr0 => ?_⟩
      · have : r' = c' := by omega
        subst this
        exact hn
      · obtain ⟨-, f2⟩ := hfirst hc0 hr0
        exact ⟨fun j hj hj' => (f2 (by omega)).1 j hj (by omega), fun k hk => (f2 (by omega)).2 k hk⟩
  obtain ⟨⟨b, off, p⟩, hb, ⟨h1, h2, h3⟩, h4, h5⟩ := succeeds_iff.1 hw
  refine ⟨⟨b, off⟩, ?_, ⟨h1, h2, h3⟩, h4, h5⟩
  unfold LinfaLinalg.symTridiagonal
  rw [checkSquare_ok hs]
  simp only [ok_bind]
  rw [if_neg (by omega), hb]
  rfl

/-- A NaN on the diagonal stays there for every iteration of the main loop. -/
theorem eigLoop (hN : NanLike N) {n : Nat} {eps : α} (fuel : Nat) {st st' : EigState α} (hsh : EigShape n eps st) {j : Nat}
    (hj : j < n) (h : N (st.diag.get j)) (hst : LinfaLinalg.eigLoop eps fuel st = .ok st') : N (st'.diag.get j) := by
  have := wp_eigLoop (E := fun _ => True) fuel hsh trivial (fun st => N (st.diag.get j)) h ?_
  · rw [hst] at this
    exact this.2.1
  intro st hsh hne h
  refine wp_conseq (wp_eigStep hsh hne (fun mid => N (mid.diag.get j)) ?_ ?_) ?_
  · intro hs
    rw [eig2x2_eq hsh hs]
    cases hc : compute2x2Eigvals (st.diag.get st.start) (st.off.get st.start) (st.off.get st.start)
        (st.diag.get (st.start + 1)) with
    | none => trivial
    | some l =>
      obtain ⟨l0, l1⟩ := l
      simp only [wp_ok]
      have hno : ¬ (N (st.diag.get st.start) ∨ N (st.diag.get (st.start + 1))) := by
        intro hor
        unfold compute2x2Eigvals at hc
        simp only at hc
        have hv : N ((st.diag.get st.start - st.diag.get (st.start + 1)) * NdFloat.ofRat (1 / 2)) := by
          rcases hor with h | h
          · exact hN.mul_l (hN.sub_l h)
          · exact hN.mul_l (hN.sub_r h)
        rw [hN.le_r (hN.add_r (hN.mul_l hv)), if_neg (by simp)] at hc
        cases hc
      simp only [Arr1.upd]
      rw [if_neg, if_neg]
      · exact h
      · rintro rfl; exact hno (Or.inl h)
      · rintro rfl; exact hno (Or.inr h)
  · intro r e hs hr _ hloop
    have := succeeds_iff.1 (wp_sweep (α := α) (N := n) (start := st.start) (n := st.end)
      (s := ⟨st.diag, st.off, st.q, st.diag.get st.start - wilkinsonShift (st.diag.get (st.end - 1))
            (st.diag.get st.end) (st.off.get (st.end - 1)), st.off.get st.start⟩)
      hsh.lt hsh.le ⟨hsh.diag, hsh.off, hsh.q⟩ (fun _ s => N (s.diag.get j)) (fun s => N (s.diag.get j)) h
      (fun i s rot norm _ _ _ h _ => ?_) (fun _ _ _ _ _ h _ => h) (fun _ _ h => h))
    · obtain ⟨r', hr', -, h'⟩ := this
      rw [hloop] at hr'
      injection hr' with hr'
      subst hr'
      exact h'
    · show N (((s.diag.upd i _).upd (i + 1) _).get j)
      simp only [Arr1.upd]
      by_cases e1 : j = i + 1
      · rw [if_pos e1]
        subst e1
        exact hN.add_l (hN.add_r (hN.mul_r h))
      · rw [if_neg e1]
        by_cases e2 : j = i
        · rw [if_pos e2]
          subst e2
          exact hN.sub_l (hN.add_l (hN.mul_r h))
        · rw [if_neg e2]
          exact h
  · rintro st' ⟨h1, mid, hm, -, -, hd, -⟩
    refine ⟨h1, ?_⟩
    rw [hd]
    exact hm

/-- When `symmetric_eig` returns for a matrix with a NaN in its lower triangle after
the scaling, one of the values is NaN. -/
theorem symmetricEig_scaled (hN : NanLike N) (fuel : Nat) (a : Arr2 α) (ev : Bool) (eps : α) (hs : a.nr = a.nc) {r c : Nat}
    (hr : r < a.nr) (hcr : c ≤ r) (h : N ((a.scaleDown a.amax).get r c)) {res : Arr1 α × Option (Arr2 α)}
    (hres : symmetricEig fuel a ev eps = .ok res) : ∃ j, j < a.nr ∧ N (res.1.get j) := by
  obtain ⟨t, ht, hsh, q, hq, hev, -, h1, h2⟩ := symmetricEig_cases fuel a ev eps hs (by omega)
  have hsc : (a.scaleDown a.amax).nr = a.nr ∧ (a.scaleDown a.amax).nc = a.nc := by
    unfold Arr2.scaleDown; split <;> exact ⟨rfl, rfl⟩
  obtain ⟨t', ht', -, ⟨j, hj, hd⟩, -⟩ := hN.symTridiagonal (a.scaleDown a.amax) (by omega) (r := r) (c := c) (by omega) hcr h
  rw [ht] at ht'
  injection ht' with ht'
  subst ht'
  by_cases hn : a.nr = 1
  · rw [h1 hn] at hres
    injection hres with hres
    subst hres
    exact ⟨j, by omega, hN.mul_l hd⟩
  · obtain ⟨off, s, e, -, -, hes, heq⟩ := h2 hn
    rw [heq] at hres
    cases hl : LinfaLinalg.eigLoop eps fuel ⟨t.intoDiagonals.1, off, q, s, e⟩ with
    | error f => rw [hl] at hres; cases hres
    | ok st =>
      rw [hl, ok_bind] at hres
      injection hres with hres
      subst hres
      exact ⟨j, by omega, hN.mul_l (hN.eigLoop fuel hes (by omega) hd hl)⟩

/-- When `symmetric_eig` returns for a matrix with a NaN in its lower triangle, one of the values is NaN. -/
theorem symmetricEig (hN : NanLike N) (fuel : Nat) (a : Arr2 α) (ev : Bool) (eps : α) (hs : a.nr = a.nc) {r c : Nat}
    (hr : r < a.nr) (hcr : c ≤ r) (h : N (a.get r c)) {res : Arr1 α × Option (Arr2 α)}
    (hres : LinfaLinalg.symmetricEig fuel a ev eps = .ok res) : ∃ j, j < a.nr ∧ N (res.1.get j) :=
  hN.symmetricEig_scaled fuel a ev eps hs hr hcr (hN.scaleDown a _ h) hres

/-- A NaN below the diagonal in the first column after the scaling: the main loop is not entered at all. -/
theorem symmetricEig_first_scaled (hN : NanLike N) (hlt : ∀ x y : α, N y → NdFloat.lt x y = false) (fuel : Nat) (a : Arr2 α) (ev : Bool)
    (eps : α) (hs : a.nr = a.nc) {r : Nat} (hr : r < a.nr) (hr0 : 0 < r)
    (h : N ((a.scaleDown a.amax).get r 0)) :
    ∃ res, LinfaLinalg.symmetricEig fuel a ev eps = .ok res ∧ res.1.len = a.nr ∧
      ∀ j, 0 < j → j < a.nr → N (res.1.get j) := by
  obtain ⟨t, ht, hsh, q, hq, hev, -, -, h2⟩ := symmetricEig_cases fuel a ev eps hs (by omega)
  have hsc : (a.scaleDown a.amax).nr = a.nr ∧ (a.scaleDown a.amax).nc = a.nc := by
    unfold Arr2.scaleDown; split <;> exact ⟨rfl, rfl⟩
  obtain ⟨t', ht', -, -, hf⟩ := hN.symTridiagonal (a.scaleDown a.amax) (by omega) (r := r) (c := 0) (by omega) (by omega) h
  rw [ht] at ht'
  injection ht' with ht'
  subst ht'
  obtain ⟨hd, ho⟩ := hf rfl hr0
  obtain ⟨off, s, e, -, ds, hes, heq⟩ := h2 (by omega)
  have he : e = 0 := by
    by_contra h0
    have := ds.big h0
    unfold bigOff at this
    have hx : N (NdFloat.abs (t.intoDiagonals.2.get (e - 1))) :=
      hN.abs (hN.abs (ho (e - 1) (by have := ds.le; omega)))
    rw [hlt _ _ hx] at this
    cases this
  have hs0 := ds.zero he
  subst he hs0
  have hl : LinfaLinalg.eigLoop eps fuel ⟨t.intoDiagonals.1, off, q, 0, 0⟩ = .ok ⟨t.intoDiagonals.1, off, q, 0, 0⟩ := by
    cases fuel <;> simp [LinfaLinalg.eigLoop]
  rw [heq, hl, ok_bind]
  exact ⟨_, rfl, hes.diag, fun j hj hj' => hN.mul_l (hd j hj (by omega))⟩

/-- A NaN below the diagonal in the first column: the main loop is not entered at all. -/
theorem symmetricEig_first (hN : NanLike N) (hlt : ∀ x y : α, N y → NdFloat.lt x y = false) (fuel : Nat) (a : Arr2 α) (ev : Bool)
    (eps : α) (hs : a.nr = a.nc) {r : Nat} (hr : r < a.nr) (hr0 : 0 < r) (h : N (a.get r 0)) :
    ∃ res, LinfaLinalg.symmetricEig fuel a ev eps = .ok res ∧ res.1.len = a.nr ∧
      ∀ j, 0 < j → j < a.nr → N (res.1.get j) :=
  hN.symmetricEig_first_scaled hlt fuel a ev eps hs hr hr0 (hN.scaleDown a _ h)

end NanLike

end LinfaLinalg
