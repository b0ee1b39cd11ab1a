import Verif.Proofs.NaNSvd
import Verif.Proofs.Cholesky
import Verif.Proofs.Qr

/-! # NaN in the direct solvers -/

set_option linter.unusedSectionVars false

namespace LinfaLinalg

variable {α : Type} [Zero α] [One α] [Add α] [Sub α] [Mul α] [Div α] [Neg α] [NdFloat α]

namespace NanLike
variable {N : α → Prop}

theorem sumTo (hN : NanLike N) {n : Nat} {f : Nat → α} {k : Nat} (hk : k < n) (h : N (f k)) : N (sumTo n f) := by
  unfold LinfaLinalg.sumTo
  induction n with
  | zero => omega
  | succ n ih =>
    rw [List.range_succ, List.foldl_append]
    by_cases hkn : k = n
    · subst hkn
      exact hN.add_r h
    · exact hN.add_l (ih (by omega))

/-! ## Triangular systems -/

section tri
variable {a : Arr2 α} {d : Nat → α} {rows : Nat → Nat → Nat × Nat} {n : Nat}

theorem elim_keep (hN : NanLike N) {x : Nat → α} {r : Nat} (h : N (x r)) (l : List Nat) :
    N (l.foldl (elimStep a d rows n) x r) := by
  induction l generalizing x with
  | nil => exact h
  | cons i l ih =>
    rw [List.foldl_cons]
    refine ih ?_
    unfold elimStep
    split_ifs with h1
    · subst h1; exact hN.div_l h
    · exact hN.add_l h
    · exact h

theorem elim_entry (hN : NanLike N) {x : Nat → α} {r c : Nat} (hrc : r ≠ c) (hr : (rows c n).1 ≤ r ∧ r < (rows c n).2)
    (h : N (a.get r c)) (pre post : List Nat) : N ((pre ++ c :: post).foldl (elimStep a d rows n) x r) := by
  rw [List.foldl_append, List.foldl_cons]
  refine hN.elim_keep ?_ post
  unfold elimStep
  rw [if_neg hrc, if_pos hr]
  exact hN.add_r (hN.mul_r h)

theorem elim_spread (hN : NanLike N) {x : Nat → α} {r i : Nat} (pre post : List Nat)
    (h : N (pre.foldl (elimStep a d rows n) x r) ∨ N (d r)) (hi : i = r ∨ (rows r n).1 ≤ i ∧ i < (rows r n).2) :
    N ((pre ++ r :: post).foldl (elimStep a d rows n) x i) := by
  rw [List.foldl_append, List.foldl_cons]
  refine hN.elim_keep ?_ post
  have hq : N (pre.foldl (elimStep a d rows n) x r / d r) := by
    rcases h with h | h
    · exact hN.div_l h
    · exact hN.div_r h
  unfold elimStep
  split_ifs with h1 h2
  · exact hq
  · exact hN.add_r (hN.mul_l (hN.neg hq))
  · rcases hi with hi | hi
    · exact absurd hi h1
    · exact absurd hi h2

end tri

/-- The position `i` comes after `r` in the order of elimination, or is `r`. -/
def After (uplo : UPLO) (r i : Nat) : Prop :=
  match uplo with
  | .upper => i ≤ r
  | .lower => r ≤ i

theorem elimOrder_split (uplo : UPLO) {n r : Nat} (hr : r < n) :
    ∃ pre post, elimOrder uplo n = pre ++ r :: post ∧ ∀ c, c < n → c ≠ r → After uplo c r → c ∈ pre := by
  cases uplo with
  | lower =>
    refine ⟨List.range' 0 r, List.range' (r + 1) (n - r - 1), ?_, fun c _ h1 h2 => ?_⟩
    · unfold elimOrder
      dsimp only
      rw [show n = r + (n - r - 1 + 1) by omega, ← List.range'_append_1, List.range'_succ]
      simp
    · simp only [After] at h2
      rw [List.mem_range'_1]; omega
  | upper =>
    refine ⟨(List.range' (r + 1) (n - r - 1)).reverse, (List.range' 0 r).reverse, ?_, fun c _ h1 h2 => ?_⟩
    · unfold elimOrder
      dsimp only
      rw [show n = r + (n - r - 1 + 1) by omega, ← List.range'_append_1, List.range'_succ]
      simp
    · simp only [After] at h2
      rw [List.mem_reverse, List.mem_range'_1]; omega

/-- A NaN in the right-hand side, on the diagonal or in the triangle reaches all later entries of the solution. -/
theorem solveSystem (hN : NanLike N) {a b x : Arr2 α} {uplo : UPLO} {diag : Nat → M α} {d : Nat → α} {n k r : Nat}
    (ha : a.nr = n) (hac : a.nc = n) (hb : b.nr = n) (hd : ∀ i, i < n → diag i = .ok (d i)) (hk : k < b.nc) (hr : r < n)
    (h : N (b.get r k) ∨ N (d r) ∨ ∃ c, c < n ∧ c ≠ r ∧ After uplo c r ∧ N (a.get r c))
    (hx : solveTriangularSystem a b uplo diag = .ok x) : ∀ i, i < n → After uplo r i → N (x.get i k) := by
  subst ha
  rw [solveTriangularSystem_eq a b uplo diag d hac.symm hb hd] at hx
  injection hx with hx
  subst hx
  intro i hi hir
  dsimp only
  rw [if_pos hk]
  obtain ⟨pre, post, e, hpre⟩ := elimOrder_split uplo hr
  rw [e]
  refine hN.elim_spread pre post ?_ ?_
  · rcases h with h | h | ⟨c, hc, hcr, hca, h⟩
    · exact Or.inl (hN.elim_keep (x := fun r => b.get r k) h pre)
    · exact Or.inr h
    · left
      obtain ⟨p1, p2, rfl⟩ := List.append_of_mem (hpre c hc hcr hca)
      refine hN.elim_entry hcr.symm ?_ h p1 p2
      cases uplo <;> simp only [After, elimRows] at hca ⊢ <;> omega
  · by_cases h1 : i = r
    · exact Or.inl h1
    · right
      cases uplo <;> simp only [After, elimRows] at hir ⊢ <;> omega

/-! ## Cholesky -/

/-- From the first row with a NaN in its lower part, all pivots are NaN. -/
theorem cholRows (hN : NanLike N) {m : Nat} {A b : Arr2 α} (h : CholRows m A b) {r c : Nat} (hrc : c ≤ r)
    (hn : N (A.get r c)) : ∀ i, r ≤ i → i < m → N (b.get i i) := by
  have key : ∀ i, i < m → (∃ c, c < i ∧ N (b.get i c)) ∨ N (A.get i i) → N (b.get i i) := by
    rintro i hi (⟨c, hc, h'⟩ | h')
    · rw [h.diag i hi]
      exact hN.sqrt (hN.sub_r (hN.sumTo hc (hN.mul_l h')))
    · rw [h.diag i hi]
      exact hN.sqrt (hN.sub_l h')
  intro i hri hi
  have h0 : N (b.get r r) := by
    refine key r (by omega) ?_
    by_cases hc : c = r
    · subst hc; exact Or.inr hn
    · left
      refine ⟨c, by omega, ?_⟩
      rw [h.off r (by omega) c (by omega)]
      exact hN.div_l (hN.sub_l hn)
  by_cases hir : i = r
  · subst hir; exact h0
  · refine key i hi (Or.inl ⟨r, by omega, ?_⟩)
    rw [h.off i hi r (by omega)]
    exact hN.div_r h0

/-- The same for a run that is rejected: the rejected pivot comes before the row with the NaN. -/
theorem cholFailed (hN : NanLike N) {j : Nat} {A b : Arr2 α} (h : CholFailed j A b) {r c : Nat} (hrc : c ≤ r)
    (hn : N (A.get r c)) : j < r := by
  by_contra hlt
  have hp : N (pivot A b j) := by
    have h0 : ∀ i, i ≤ j → r ≤ i → N (pivot A b i) := by
      have hr : N (pivot A b r) := by
        by_cases hc : c = r
        · subst hc; exact hN.sub_l hn
        · refine hN.sub_r (hN.sumTo (k := c) (by omega) (hN.mul_l ?_))
          rw [h.off r (by omega) c (by omega)]
          exact hN.div_l (hN.sub_l hn)
      intro i hij hri
      by_cases hir : i = r
      · subst hir; exact hr
      · refine hN.sub_r (hN.sumTo (k := r) (by omega) (hN.mul_l ?_))
        rw [h.off i hij r (by omega)]
        refine hN.div_r ?_
        rw [h.diag r (by omega)]
        exact hN.sqrt hr
    exact h0 j le_rfl (by omega)
  have := hN.le_l (b := 0) hp
  rw [h.bad] at this
  cases this

theorem solvec (hN : NanLike N) {a b x : Arr2 α} (hx : solvec a b = .ok x) {k : Nat} (hk : k < b.nc)
    (h : (∃ r c, r < a.nr ∧ c ≤ r ∧ N (a.get r c)) ∨ ∃ r, r < b.nr ∧ N (b.get r k)) :
    x.nr = a.nr ∧ x.nc = b.nc ∧ ∀ i, i < a.nr → N (x.get i k) := by
  unfold LinfaLinalg.solvec at hx
  by_cases hs : a.nr = a.nc
  swap
  · unfold choleskyDirty at hx
    rw [choleskyInplaceDirty_notSquare a hs] at hx
    cases hx
  rcases choleskyDirty_cases a hs with ⟨l, hl, hr, -⟩ | ⟨hl, -⟩
  swap
  · rw [hl] at hx; cases hx
  rw [hl, ok_bind] at hx
  have hln : l.nr = a.nr := hr.nr
  have hlc : l.nc = a.nr := hr.nc.trans hs.symm
  by_cases hb : b.nr = a.nr
  swap
  · unfold solveTriangular at hx
    rw [solveTriangularSystem_wrongRows l b .lower _ (by omega) (by omega)] at hx
    cases hx
  have hy := solveTriangular_eq l b .lower (by omega) (by omega)
  rw [hy, ok_bind] at hx
  set y : Arr2 α := ⟨b.nr, b.nc, _⟩ with hydef
  have hx' := solveTriangular_eq l.t y .upper (by simp only [Arr2.t]; omega) (by simp only [Arr2.t, y]; omega)
  have hshape : x.nr = a.nr ∧ x.nc = b.nc := by
    rw [hx'] at hx
    injection hx with hx
    subst hx
    exact ⟨hb, rfl⟩
  refine ⟨hshape.1, hshape.2, fun i hi => ?_⟩
  have hn : 0 < a.nr := by omega
  have hyr : y.nr = a.nr := hb
  have hlast : N (y.get (a.nr - 1) k) := by
    have hdl : ∀ i, i < a.nr → l.at i i = .ok (l.get i i) := fun i hi => Arr2.at_ok (by omega) (by omega)
    rcases h with ⟨r, c, hr1, hcr, h⟩ | ⟨r, hr1, h⟩
    · refine hN.solveSystem (a := l) (b := b) (uplo := .lower) (d := fun i => l.get i i) hln hlc hb hdl hk hr1
        (Or.inr (Or.inl (hN.cholRows hr hcr h r le_rfl hr1))) hy _ (by omega) (by simp only [After]; omega)
    · refine hN.solveSystem (a := l) (b := b) (uplo := .lower) (d := fun i => l.get i i) hln hlc hb hdl hk
        (r := r) (by omega) (Or.inl h) hy _ (by omega) (by simp only [After]; omega)
  exact hN.solveSystem (a := l.t) (b := y) (uplo := .upper) (d := fun i => l.get i i) (n := a.nr) hlc hln hb
    (fun i hi => Arr2.at_ok (a := l.t) (by simp only [Arr2.t]; omega) (by simp only [Arr2.t]; omega)) hk (r := a.nr - 1)
    (by omega) (Or.inl hlast) hx i hi (by simp only [After]; omega)

/-! ## QR -/

theorem put_get_in (a b : Arr2 α) {i j r c : Nat} (h1 : i ≤ r) (h2 : j ≤ c) (h3 : r < i + b.nr) (h4 : c < j + b.nc) :
    (a.put i j b).get r c = b.get (r - i) (c - j) := by
  unfold Arr2.put
  exact if_pos ⟨h1, h3, h2, h4⟩

theorem put_get_out (a b : Arr2 α) {i j r c : Nat} (h : r < i) : (a.put i j b).get r c = a.get r c := by
  unfold Arr2.put
  exact if_neg (by omega)

/-- A NaN in a column to the right of the one which is cleared. -/
theorem clearColumn_right (hN : NanLike N) (a : Arr2 α) (i : Nat) (hc : i < a.nc) {r j : Nat} (hr : i ≤ r)
    (hr2 : r < a.nr) (hj : i < j) (hj2 : j < a.nc) (h : N (a.get r j)) :
    ∃ b d, LinfaLinalg.clearColumn a i 0 = .ok (b, d) ∧ b.nr = a.nr ∧ b.nc = a.nc ∧
      (d = 0 ∨ ∀ r', i ≤ r' → r' < a.nr → N (b.get r' j)) := by
  unfold LinfaLinalg.clearColumn
  rw [Arr2.colSlice_ok (by omega) le_rfl hc]
  simp only [ok_bind]
  obtain ⟨w, o, hw, hl⟩ := reflectionAxisMut_ok
    (⟨a.nr - (i + 0), fun k => a.get (i + 0 + k) i⟩ : Arr1 α) (by simp; omega)
  rw [hw]
  simp only [ok_bind]
  cases o with
  | none => exact ⟨_, _, rfl, rfl, rfl, Or.inl rfl⟩
  | some ν =>
    simp only
    rw [Arr2.slice_ok (by simp only [Arr2.putCol]; omega) le_rfl (by exact hc) le_rfl]
    simp only [ok_bind]
    rw [reflectCols_eq _ _ _ (by simpa using hl)]
    refine ⟨_, _, rfl, rfl, rfl, Or.inr fun r' h1 h2 => ?_⟩
    simp only [Arr2.put, Arr2.map, Nat.add_zero, Arr2.putCol]
    rw [if_pos (by omega), if_pos (by omega)]
    refine hN.mul_l ?_
    unfold reflEntry
    refine hN.add_r (hN.mul_l (hN.mul_l (hN.sub_l (hN.dotTo (k := r - i) (by simp only [hl]; omega) (Or.inr ?_)))))
    dsimp only
    rw [if_neg (by omega), show i + (r - i) = r by omega, show i + 1 + (j - (i + 1)) = j by omega]
    exact h

/-- `qr` of a matrix with a NaN: the last diagonal entry is NaN, or some diagonal entry is zero. -/
theorem qrInto (hN : NanLike N) (a : Arr2 α) (hle : a.nc ≤ a.nr) {r j : Nat} (hr : r < a.nr) (hj : j < a.nc)
    (h : N (a.get r j)) : ∃ q, qrInto a = .ok q ∧ QRShape a.nr a.nc q ∧
      ((∃ i, i < a.nc ∧ q.diag.get i = 0) ∨ N (q.diag.get (a.nc - 1))) := by
  have hw : Succeeds (forRange 0 a.nc (a, (Arr1.zeros a.nc : Arr1 α)) fun i (a, diag) => do
      let (a, d) ← LinfaLinalg.clearColumn a i 0
      let diag ← diag.idxSet i d
      .ok (a, diag))
      (fun p : Arr2 α × Arr1 α => p.1.nr = a.nr ∧ p.1.nc = a.nc ∧ p.2.len = a.nc ∧
        ((∃ i, i < a.nc ∧ p.2.get i = 0) ∨ N (p.2.get (a.nc - 1)))) := by
    refine wp_conseq (wp_forRange (fun i (p : Arr2 α × Arr1 α) => p.1.nr = a.nr ∧ p.1.nc = a.nc ∧
      p.2.len = a.nc ∧ ((∃ i', i' < i ∧ p.2.get i' = 0) ∨ (i ≤ j ∧ ∃ r, i ≤ r ∧ r < a.nr ∧ N (p.1.get r j)) ∨
        (j < i ∧ N (p.2.get (i - 1)) ∧ ∀ r c, i ≤ r → r < a.nr → i ≤ c → c < a.nc → N (p.1.get r c))))
      (Nat.zero_le _) ⟨rfl, rfl, rfl, Or.inr (Or.inl ⟨Nat.zero_le _, r, Nat.zero_le _, hr, h⟩)⟩ ?_) ?_
    · rintro i ⟨b, diag⟩ _ hi ⟨h1, h2, h3, h4⟩
      simp only at h1 h2 h3 h4
      rcases h4 with ⟨i', hi', hz⟩ | ⟨hij, r, hr1, hr2, hn⟩ | ⟨hji, -, hall⟩
      · obtain ⟨c, d, hc, h5, h6⟩ := clearColumn_ok b i 0 (by omega) (by omega)
        simp only [hc, ok_bind]
        rw [Arr1.idxSet_ok (by omega)]
        refine ⟨h5.trans h1, h6.trans h2, h3, Or.inl ⟨i', by omega, ?_⟩⟩
        simp only [Arr1.upd]
        rw [if_neg (by omega)]
        exact hz
      · by_cases hij' : i = j
        · subst hij'
          obtain ⟨c, d, hc, h5, h6, hd, hall⟩ := hN.clearColumn b i 0 (by omega) hr1 (by omega) hn
          simp only [hc, ok_bind]
          rw [Arr1.idxSet_ok (by omega)]
          refine ⟨h5.trans h1, h6.trans h2, h3, Or.inr (Or.inr ⟨by omega, ?_, ?_⟩)⟩
          · simpa [Arr1.upd] using hd
          · intro r c h7 h8 h9 h10
            exact hall r c (by omega) (by omega) (by omega) (by omega)
        · obtain ⟨c, d, hc, h5, h6, hd⟩ := hN.clearColumn_right b i (by omega) hr1 (by omega) (j := j) (by omega)
            (by omega) hn
          simp only [hc, ok_bind]
          rw [Arr1.idxSet_ok (by omega)]
          refine ⟨h5.trans h1, h6.trans h2, h3, ?_⟩
          rcases hd with hd | hd
          · exact Or.inl ⟨i, by omega, by simpa [Arr1.upd] using hd⟩
          · exact Or.inr (Or.inl ⟨by omega, i + 1, le_rfl, by omega, hd _ (by omega) (by omega)⟩)
      · obtain ⟨c, d, hc, h5, h6, hd, hall'⟩ := hN.clearColumn b i 0 (by omega) (r := i) (by omega) (by omega)
          (hall i i le_rfl (by omega) le_rfl (by omega))
        simp only [hc, ok_bind]
        rw [Arr1.idxSet_ok (by omega)]
        refine ⟨h5.trans h1, h6.trans h2, h3, Or.inr (Or.inr ⟨by omega, ?_, ?_⟩)⟩
        · simpa [Arr1.upd] using hd
        · intro r c h7 h8 h9 h10
          exact hall' r c (by omega) (by omega) (by omega) (by omega)
    · rintro ⟨b, diag⟩ ⟨h1, h2, h3, h4⟩
      refine ⟨h1, h2, h3, ?_⟩
      rcases h4 with h4 | h4 | h4
      · exact Or.inl h4
      · omega
      · exact Or.inr h4.2.1
  obtain ⟨p, hp, h1, h2, h3, h4⟩ := succeeds_iff.1 hw
  refine ⟨⟨p.1, p.2⟩, ?_, ⟨h1, h2, h3⟩, h4⟩
  unfold LinfaLinalg.qrInto
  rw [if_neg (by omega), hp]
  rfl

/-- `qr` of a matrix with a NaN in its first column: all of the diagonal is NaN. -/
theorem qrInto_first (hN : NanLike N) (a : Arr2 α) (hle : a.nc ≤ a.nr) {r : Nat} (hr : r < a.nr)
    (h : N (a.get r 0)) : ∃ q, LinfaLinalg.qrInto a = .ok q ∧ QRShape a.nr a.nc q ∧
      ∀ i, i < a.nc → N (q.diag.get i) := by
  have hw : Succeeds (forRange 0 a.nc (a, (Arr1.zeros a.nc : Arr1 α)) fun i (a, diag) => do
      let (a, d) ← LinfaLinalg.clearColumn a i 0
      let diag ← diag.idxSet i d
      .ok (a, diag))
      (fun p : Arr2 α × Arr1 α => p.1.nr = a.nr ∧ p.1.nc = a.nc ∧ p.2.len = a.nc ∧ ∀ i, i < a.nc → N (p.2.get i)) := by
    refine wp_conseq (wp_forRange (fun i (p : Arr2 α × Arr1 α) => p.1.nr = a.nr ∧ p.1.nc = a.nc ∧
      p.2.len = a.nc ∧ (∀ i', i' < i → N (p.2.get i')) ∧ (i < a.nc → ∃ r, i ≤ r ∧ r < a.nr ∧ N (p.1.get r i)) ∧
        (0 < i → ∀ r c, i ≤ r → r < a.nr → i ≤ c → c < a.nc → N (p.1.get r c)))
      (Nat.zero_le _) ⟨rfl, rfl, rfl, fun _ h => absurd h (Nat.not_lt_zero _), fun _ => ⟨r, Nat.zero_le _, hr, h⟩,
        fun h => absurd h (lt_irrefl _)⟩ ?_) ?_
    · rintro i ⟨b, diag⟩ _ hi ⟨h1, h2, h3, h4, h5, -⟩
      simp only at h1 h2 h3 h4 h5
      obtain ⟨r, hr1, hr2, hn⟩ := h5 hi
      obtain ⟨c, d, hc, h6, h7, hd, hall⟩ := hN.clearColumn b i 0 (by omega) hr1 (by omega) hn
      simp only [hc, ok_bind]
      rw [Arr1.idxSet_ok (by omega)]
      refine ⟨h6.trans h1, h7.trans h2, h3, ?_, fun h8 => ⟨i + 1, le_rfl, by omega, hall _ _ (by omega) (by omega) (by omega)
        (by omega)⟩, fun _ r c h8 h9 h10 h11 => hall r c (by omega) (by omega) (by omega) (by omega)⟩
      intro i' hi'
      simp only [Arr1.upd]
      split_ifs with e
      · exact hd
      · exact h4 i' (by omega)
    · rintro ⟨b, diag⟩ ⟨h1, h2, h3, h4, -⟩
      exact ⟨h1, h2, h3, h4⟩
  obtain ⟨p, hp, h1, h2, h3, h4⟩ := succeeds_iff.1 hw
  refine ⟨⟨p.1, p.2⟩, ?_, ⟨h1, h2, h3⟩, h4⟩
  unfold LinfaLinalg.qrInto
  rw [if_neg (by omega), hp]
  rfl

theorem isInvertible_of_nan (hN : NanLike N) {m n : Nat} {q : QRDecomp α} (h : QRShape m n q)
    (hd : ∀ i, i < n → N (q.diag.get i)) : q.isInvertible = true := by
  unfold QRDecomp.isInvertible
  rw [List.all_eq_true]
  intro x hx
  unfold Arr1.toList at hx
  rw [List.mem_map] at hx
  obtain ⟨i, hi, rfl⟩ := hx
  rw [List.mem_range, h.len] at hi
  rw [hN.isZero (hd i hi)]
  rfl

/-- A NaN in the first column (first row, if there are more columns than rows) is never reported. -/
theorem leastSquares_first (hN : NanLike N) (a b : Arr2 α) (hb : b.nr = a.nr)
    (h : a.nc ≤ a.nr ∧ (∃ r, r < a.nr ∧ N (a.get r 0)) ∨ a.nr < a.nc ∧ ∃ c, c < a.nc ∧ N (a.get 0 c)) :
    ∃ x, LinfaLinalg.leastSquares a b = .ok x := by
  unfold LinfaLinalg.leastSquares
  rcases h with ⟨hle, r, hr, h⟩ | ⟨hlt, c, hc, h⟩
  · rw [if_pos hle]
    obtain ⟨q, hq, hs, hd⟩ := hN.qrInto_first a hle hr h
    obtain ⟨c, x, -, -, -, -, hx, -⟩ := (hs.solveInto_cases hle b).2.2 hb (hN.isInvertible_of_nan hs hd)
    rw [hq, ok_bind]
    exact ⟨x, hx⟩
  · rw [if_neg (by omega)]
    have hle : a.t.nc ≤ a.t.nr := by simp only [Arr2.t]; omega
    obtain ⟨q, hq, hs, hd⟩ := hN.qrInto_first a.t hle hc h
    obtain ⟨y, Q, x, -, -, -, -, -, hx, -⟩ := (hs.solveTrInto_cases hle b).2.2 hb (hN.isInvertible_of_nan hs hd)
    rw [hq, ok_bind]
    exact ⟨x, hx⟩

/-- `qt_mul` of a column with a NaN. -/
theorem qtMul (hN : NanLike N) {m n : Nat} {q : QRDecomp α} (h : QRShape m n q) (hnm : n ≤ m) (hn : 0 < n) (b : Arr2 α)
    (hb : b.nr = m) {r k : Nat} (hr : r < m) (hk : k < b.nc) (hbn : N (b.get r k)) :
    ∃ c, q.qtMul b = .ok c ∧ ∀ i, i < m → N (c.get i k) := by
  unfold QRDecomp.qtMul
  have := succeeds_iff.1 (wp_forRange (E := fun _ => False) (hi := q.qr.nc) (s := b) (f := fun i (b : Arr2 α) => do
      let axis ← q.qr.colSlice i q.qr.nr i
      let rows ← b.slice i b.nr 0 b.nc
      let rows ← reflectCols axis 0 rows
      let d ← q.diag.idx i
      let rows := rows.map fun x => x * NdFloat.signum d
      Except.ok (b.put i 0 rows)) (fun i (c : Arr2 α) => c.nr = m ∧ c.nc = b.nc ∧ N (c.get r k) ∧
      (0 < i → ∀ i, i < m → N (c.get i k)))
    (Nat.zero_le _) ⟨hb, rfl, hbn, fun h => absurd h (lt_irrefl _)⟩ ?_)
  · obtain ⟨c, hc, -, -, -, h'⟩ := this
    exact ⟨c, hc, h' (by rw [h.nc]; exact hn)⟩
  rintro i c _ hi ⟨h1, h2, h3, h4⟩
  rw [h.nc] at hi
  rw [Arr2.colSlice_ok (by rw [h.nr]; omega) le_rfl (by rw [h.nc]; omega)]
  simp only [ok_bind]
  rw [Arr2.slice_ok (by omega) le_rfl (by omega) le_rfl]
  simp only [ok_bind]
  rw [reflectCols_eq _ _ _ (by simp [h1, h.nr]), Arr1.idx_ok (by rw [h.len]; exact hi)]
  simp only [ok_bind]
  suffices hall : ∀ i', i' < m → N ((c.put i 0 _).get i' k) from ⟨h1, h2, hall r hr, fun _ => hall⟩
  · intro i' hi'
    by_cases c1 : i ≤ i'
    · rw [put_get_in c _ c1 (Nat.zero_le _) (by simp only [Arr2.map]; omega) (by simp only [Arr2.map]; omega)]
      simp only [Arr2.map]
      refine hN.mul_l ?_
      rw [if_pos (by omega)]
      unfold reflEntry
      by_cases hi0 : i = 0
      · subst hi0
        refine hN.add_r (hN.mul_l (hN.mul_l (hN.sub_l (hN.dotTo (k := r) (by simp only [h.nr]; omega) (Or.inr ?_)))))
        simpa using h3
      · refine hN.add_l ?_
        dsimp only
        rw [show i + (i' - i) = i' by omega, show 0 + (k - 0) = k by omega]
        exact h4 (by omega) i' hi'
    · rw [put_get_out c _ (by omega)]
      exact h4 (by omega) i' hi'

theorem isInvertible_of_zero (hz : NdFloat.isZero (0 : α) = true) {m n : Nat} {q : QRDecomp α} (h : QRShape m n q) {i : Nat}
    (hi : i < n) (h0 : q.diag.get i = 0) : q.isInvertible = false := by
  unfold QRDecomp.isInvertible
  rw [List.all_eq_false]
  refine ⟨q.diag.get i, ?_, ?_⟩
  · unfold Arr1.toList
    rw [List.mem_map]
    exact ⟨i, by rw [List.mem_range, h.len]; exact hi, rfl⟩
  · rw [h0, hz]; simp

/-- `least_squares` with a NaN in the matrix or in a column of the right-hand side. -/
theorem leastSquares (hN : NanLike N) (hz : NdFloat.isZero (0 : α) = true) {a b x : Arr2 α}
    (hx : leastSquares a b = .ok x) {k : Nat} (hk : k < b.nc) (h0 : 0 < a.nr) (h0' : 0 < a.nc)
    (h : (∃ r c, r < a.nr ∧ c < a.nc ∧ N (a.get r c)) ∨ ∃ r, r < b.nr ∧ N (b.get r k)) :
    x.nr = a.nc ∧ x.nc = b.nc ∧ ∀ i, i < a.nc → N (x.get i k) := by
  unfold LinfaLinalg.leastSquares at hx
  split_ifs at hx with hge
  · have hq : ∃ q, LinfaLinalg.qrInto a = .ok q ∧ QRShape a.nr a.nc q ∧
        ((∃ i, i < a.nc ∧ q.diag.get i = 0) ∨ N (q.diag.get (a.nc - 1)) ∨ ∃ r, r < b.nr ∧ N (b.get r k)) := by
      rcases h with ⟨r, c, hr, hc, h⟩ | h
      · obtain ⟨q, h1, h2, h3⟩ := hN.qrInto a hge hr hc h
        exact ⟨q, h1, h2, h3.imp_right Or.inl⟩
      · obtain ⟨q, h1, h2⟩ := qrInto_ok a hge
        exact ⟨q, h1, h2, Or.inr (Or.inr h)⟩
    obtain ⟨q, hq, hs, h⟩ := hq
    rw [hq, ok_bind] at hx
    obtain ⟨c1, c2, c3⟩ := hs.solveInto_cases hge b
    by_cases hb : b.nr = a.nr
    swap
    · rw [c1 hb] at hx; cases hx
    cases hi : q.isInvertible with
    | false => rw [c2 hb hi] at hx; cases hx
    | true =>
      obtain ⟨c, x', hc, hc1, hc2, hsol, hx', s1, s2⟩ := c3 hb hi
      rw [hx] at hx'
      injection hx' with hx'
      subst hx'
      refine ⟨s1, s2, fun i hi' => ?_⟩
      refine hN.solveSystem (a := ⟨a.nc, a.nc, q.qr.get⟩) (b := ⟨a.nc, b.nc, c.get⟩) (n := a.nc) (r := a.nc - 1) rfl rfl rfl (fun i hi => hs.absDiag_ok i hi) hk (by omega) ?_ hsol i hi'
        (by simp only [After]; omega)
      rcases h with ⟨i, hi1, hi2⟩ | h | ⟨r, hr, h⟩
      · rw [isInvertible_of_zero hz hs hi1 hi2] at hi; cases hi
      · exact Or.inr (Or.inl (hN.abs h))
      · left
        obtain ⟨c', hc', hall⟩ := hN.qtMul hs hge h0' b hb (by omega) hk h
        rw [hc] at hc'
        injection hc' with hc'
        subst hc'
        exact hall _ (by omega)
  · have hle : a.t.nc ≤ a.t.nr := by simp only [Arr2.t]; omega
    have hq : ∃ q, LinfaLinalg.qrInto a.t = .ok q ∧ QRShape a.nc a.nr q ∧
        ((∃ i, i < a.nr ∧ q.diag.get i = 0) ∨ N (q.diag.get (a.nr - 1)) ∨ ∃ r, r < b.nr ∧ N (b.get r k)) := by
      rcases h with ⟨r, c, hr, hc, h⟩ | h
      · obtain ⟨q, h1, h2, h3⟩ := hN.qrInto a.t hle (r := c) (j := r) hc hr h
        exact ⟨q, h1, h2, h3.imp_right Or.inl⟩
      · obtain ⟨q, h1, h2⟩ := qrInto_ok a.t hle
        exact ⟨q, h1, h2, Or.inr (Or.inr h)⟩
    obtain ⟨q, hq, hs, h⟩ := hq
    rw [hq, ok_bind] at hx
    obtain ⟨c1, c2, c3⟩ := hs.solveTrInto_cases hle b
    by_cases hb : b.nr = a.nr
    swap
    · rw [c1 hb] at hx; cases hx
    cases hi : q.isInvertible with
    | false => rw [c2 hb hi] at hx; cases hx
    | true =>
      obtain ⟨y, Q, x', hsol, hQ, hQ1, hQ2, hdot, hx', s1, s2⟩ := c3 hb hi
      rw [hx] at hx'
      injection hx' with hx'
      subst hx'
      refine ⟨s1, s2, fun i hi' => ?_⟩
      have hlast : N (y.get (a.nr - 1) k) := by
        rcases h with ⟨i, hi1, hi2⟩ | h | ⟨r, hr, h⟩
        · rw [isInvertible_of_zero hz hs hi1 hi2] at hi; cases hi
        · exact hN.solveSystem (a := ⟨a.nr, a.nr, fun i j => q.qr.get j i⟩) (n := a.nr) (r := a.nr - 1) rfl rfl hb (fun i hi => hs.absDiag_ok i hi) hk (by omega)
            (Or.inr (Or.inl (hN.abs h))) hsol _ (by omega) (by simp only [After]; omega)
        · exact hN.solveSystem (a := ⟨a.nr, a.nr, fun i j => q.qr.get j i⟩) (n := a.nr) (r := r) rfl rfl hb (fun i hi => hs.absDiag_ok i hi) hk (by omega)
            (Or.inl h) hsol _ (by omega) (by simp only [After]; omega)
      unfold Arr2.dot at hdot
      split_ifs at hdot with hd
      injection hdot with hdot
      subst hdot
      exact hN.dotTo (k := a.nr - 1) (by omega) (Or.inr hlast)

end NanLike

end LinfaLinalg
