import Verif.Model.Cholesky
import Verif.Proofs.Triangular

/-! # What the Cholesky loop computes, for every scalar type -/

set_option linter.unusedSectionVars false

namespace LinfaLinalg

variable {α : Type} [Zero α] [One α] [Add α] [Sub α] [Mul α] [Div α] [Neg α] [NdFloat α]

theorem sumTo_succ (n : Nat) (f : Nat → α) : sumTo (n + 1) f = sumTo n f + f n := by
  unfold sumTo
  rw [List.range_succ, List.foldl_append]
  rfl

@[simp] theorem sumTo_zero (f : Nat → α) : sumTo 0 f = 0 := rfl

theorem dotTo_congr {n : Nat} {f f' g g' : Nat → α} (hf : ∀ k, k < n → f k = f' k)
    (hg : ∀ k, k < n → g k = g' k) : dotTo n f g = dotTo n f' g' := by
  unfold dotTo
  congr 1
  refine List.map_congr_left fun k hk => ?_
  rw [List.mem_range] at hk
  rw [hf k hk, hg k hk]

theorem sumTo_congr {n : Nat} {f g : Nat → α} (h : ∀ k, k < n → f k = g k) :
    sumTo n f = sumTo n g := by
  induction n with
  | zero => rfl
  | succ n ih =>
    rw [sumTo_succ, sumTo_succ, ih (fun k hk => h k (by omega)), h n (by omega)]

theorem cholDot_eq (a : Arr2 α) (k j : Nat) (hk : k < a.nr) (hj : j < a.nr) (hkc : k ≤ a.nc) :
    cholDot a k j = .ok (sumTo k fun i => a.get k i * a.get j i) := by
  have := wp_forRange (lo := 0) (hi := k) (s := (0 : α))
    (f := fun i s => a.at k i >>= fun x => a.at j i >>= fun y => Except.ok (s + x * y))
    (E := fun _ => False) (fun m s => s = sumTo m fun i => a.get k i * a.get j i)
    (Nat.zero_le _) rfl
    (by
      intro i s _ hi hs
      subst hs
      rw [Arr2.at_ok hk (by omega), Arr2.at_ok hj (by omega)]
      simp [sumTo_succ])
  obtain ⟨b', hb', rfl⟩ := succeeds_iff.1 this
  exact hb'

/-- The strictly lower part of row `j` of `b` has been computed from `a`, everything else is as
in `a`; `m` entries are done. -/
structure RowDone (a b : Arr2 α) (j m : Nat) : Prop where
  nr : b.nr = a.nr
  nc : b.nc = a.nc
  frame : ∀ r c, (r ≠ j ∨ m ≤ c) → b.get r c = a.get r c
  entry : ∀ c, c < m →
    b.get j c = (a.get j c - sumTo c fun i => a.get c i * b.get j i) / a.get c c

theorem cholRow_wp (a : Arr2 α) (j : Nat) (hj : j < a.nr) (hjc : j < a.nc) :
    Succeeds (cholRow j a) fun p =>
      RowDone a p.1 j j ∧ p.2 = sumTo j fun c => p.1.get j c * p.1.get j c := by
  unfold cholRow
  refine wp_forRange (fun m (p : Arr2 α × α) => RowDone a p.1 j m ∧
    p.2 = sumTo m fun c => p.1.get j c * p.1.get j c) (Nat.zero_le _) ?_ ?_
  · exact ⟨⟨rfl, rfl, fun _ _ _ => rfl, fun c hc => absurd hc (Nat.not_lt_zero _)⟩, rfl⟩
  · rintro k ⟨b, d⟩ _ hk ⟨hb, hd⟩
    obtain ⟨h1, h2, h3, h4⟩ := hb
    simp only at h1 h2 h3 h4 hd
    simp only
    rw [cholDot_eq b k j (by omega) (by omega) (by omega), Arr2.at_ok (by omega) (by omega),
      Arr2.at_ok (by omega) (by omega)]
    simp only [ok_bind]
    rw [Arr2.atm_ok (by omega) (by omega)]
    simp only [ok_bind, wp_ok]
    have hne : ∀ c, c < k → (b.upd j k ((b.get j k - sumTo k fun i => b.get k i * b.get j i) /
        b.get k k)).get j c = b.get j c := by
      intro c hc; rw [Arr2.upd_get, if_neg (by omega)]
    refine ⟨⟨h1, h2, ?_, ?_⟩, ?_⟩
    · intro r c hrc
      rw [Arr2.upd_get, if_neg (by omega), h3 r c (by omega)]
    · intro c hc
      by_cases hck : c = k
      · subst hck
        rw [Arr2.upd_get, if_pos ⟨rfl, rfl⟩, h3 j c (Or.inr le_rfl), h3 c c (by omega)]
        congr 2
        apply sumTo_congr
        intro i hi
        rw [Arr2.upd_get, if_neg (by omega), h3 c i (by omega)]
      · rw [hne c (by omega), h4 c (by omega)]
        congr 2
        apply sumTo_congr
        intro i hi
        rw [hne i (by omega)]
    · rw [sumTo_succ]
      congr 1
      · rw [hd]
        apply sumTo_congr
        intro c hc
        rw [hne c hc]
      · rw [Arr2.upd_get, if_pos ⟨rfl, rfl⟩]

/-- The strictly-lower entries of row `r` of `b` satisfy the Cholesky recurrence for `A`. -/
def OffRow (A b : Arr2 α) (r : Nat) : Prop :=
  ∀ c, c < r → b.get r c = (A.get r c - sumTo c fun i => b.get c i * b.get r i) / b.get c c

/-- The pivot of row `r` (before the square root). -/
def pivot (A b : Arr2 α) (r : Nat) : α := A.get r r - sumTo r fun c => b.get r c * b.get r c

/-- State of the factorization after `m` rows. -/
structure CholRows (m : Nat) (A b : Arr2 α) : Prop where
  nr : b.nr = A.nr
  nc : b.nc = A.nc
  frame : ∀ r c, (m ≤ r ∨ r < c) → b.get r c = A.get r c
  off : ∀ r, r < m → OffRow A b r
  piv : ∀ r, r < m → NdFloat.le (pivot A b r) 0 = false
  diag : ∀ r, r < m → b.get r r = NdFloat.sqrt (pivot A b r)

/-- State of the factorization when the pivot of row `j` was rejected. -/
structure CholFailed (j : Nat) (A b : Arr2 α) : Prop where
  nr : b.nr = A.nr
  nc : b.nc = A.nc
  frame : ∀ r c, (j < r ∨ (j = r ∧ j ≤ c) ∨ r < c) → b.get r c = A.get r c
  off : ∀ r, r ≤ j → OffRow A b r
  piv : ∀ r, r < j → NdFloat.le (pivot A b r) 0 = false
  diag : ∀ r, r < j → b.get r r = NdFloat.sqrt (pivot A b r)
  bad : NdFloat.le (pivot A b j) 0 = true

theorem CholRows.zero (A : Arr2 α) : CholRows 0 A A :=
  ⟨rfl, rfl, fun _ _ _ => rfl, fun _ h => absurd h (Nat.not_lt_zero _),
    fun _ h => absurd h (Nat.not_lt_zero _), fun _ h => absurd h (Nat.not_lt_zero _)⟩

/-- Completing row `j`. -/
theorem CholRows.row {j : Nat} {A b c : Arr2 α} (h : CholRows j A b) (hr : RowDone b c j j) :
    c.nr = A.nr ∧ c.nc = A.nc ∧
    (∀ r k, (j < r ∨ (j = r ∧ j ≤ k) ∨ r < k) → c.get r k = A.get r k) ∧
    (∀ r, r ≤ j → OffRow A c r) ∧ (∀ r, r < j → NdFloat.le (pivot A c r) 0 = false) ∧
    (∀ r, r < j → c.get r r = NdFloat.sqrt (pivot A c r)) := by
  have hc : ∀ r k, r < j → c.get r k = b.get r k := fun r k hrj => hr.frame r k (by omega)
  have hp : ∀ r, r < j → pivot A c r = pivot A b r := by
    intro r hrj
    unfold pivot
    congr 1
    apply sumTo_congr
    intro k hk
    rw [hc r k hrj]
  refine ⟨hr.nr.trans h.nr, hr.nc.trans h.nc, ?_, ?_, ?_, ?_⟩
  · intro r k hk
    rw [hr.frame r k (by omega), h.frame r k (by omega)]
  · intro r hrj k hk
    by_cases hrj' : r < j
    · rw [hc r k hrj', h.off r hrj' k hk, hc k k (by omega)]
      congr 2
      apply sumTo_congr
      intro i hi
      rw [hc k i (by omega), hc r i hrj']
    · obtain rfl : r = j := by omega
      rw [hr.entry k hk, hc k k hk, h.frame r k (by omega)]
      congr 2
      apply sumTo_congr
      intro i hi
      rw [hc k i (by omega)]
  · intro r hrj
    rw [hp r hrj]; exact h.piv r hrj
  · intro r hrj
    rw [hp r hrj, hc r r hrj]; exact h.diag r hrj

/-- Storing the pivot of row `j`. -/
theorem CholRows.succ {j : Nat} {A b c : Arr2 α} (h : CholRows j A b) (hr : RowDone b c j j)
    (hpos : NdFloat.le (pivot A c j) 0 = false) :
    CholRows (j + 1) A (c.upd j j (NdFloat.sqrt (pivot A c j))) := by
  obtain ⟨h1, h2, h3, h4, h5, h6⟩ := h.row hr
  set e := c.upd j j (NdFloat.sqrt (pivot A c j)) with he
  have hne : ∀ r k, (r ≠ j ∨ k ≠ j) → e.get r k = c.get r k := by
    intro r k hrk
    rw [he, Arr2.upd_get, if_neg (by omega)]
  have hp : ∀ r, r ≤ j → pivot A e r = pivot A c r := by
    intro r hrj
    unfold pivot
    congr 1
    apply sumTo_congr
    intro k hk
    rw [hne r k (by omega)]
  refine ⟨h1, h2, ?_, ?_, ?_, ?_⟩
  · intro r k hk
    rw [hne r k (by omega), h3 r k (by omega)]
  · intro r hrj k hk
    rw [hne r k (by omega), hne k k (by omega), h4 r (by omega) k hk]
    congr 2
    apply sumTo_congr
    intro i hi
    rw [hne k i (by omega), hne r i (by omega)]
  · intro r hrj
    rw [hp r (by omega)]
    by_cases hrj' : r < j
    · exact h5 r hrj'
    · obtain rfl : r = j := by omega
      exact hpos
  · intro r hrj
    rw [hp r (by omega)]
    by_cases hrj' : r < j
    · rw [hne r r (by omega)]; exact h6 r hrj'
    · obtain rfl : r = j := by omega
      rw [he, Arr2.upd_get, if_pos ⟨rfl, rfl⟩]

/-- Postcondition of the Cholesky loop on `n` rows. -/
def CholPost (n : Nat) (A : Arr2 α) (p : Arr2 α × Option LinalgError) : Prop :=
  (p.2 = none ∧ CholRows n A p.1) ∨
    (p.2 = some .notPositiveDefinite ∧ ∃ j, j < n ∧ CholFailed j A p.1)

theorem cholLoop_wp (A b : Arr2 α) (n m j : Nat) (hA : n ≤ A.nr) (hA' : n ≤ A.nc) (hj : j + m = n)
    (h : CholRows j A b) : Succeeds (cholLoop (List.range' j m) b) (CholPost n A) := by
  induction m generalizing j b with
  | zero =>
    simp only [List.range'_zero, cholLoop, wp_ok]
    left
    obtain rfl : j = n := by omega
    exact ⟨rfl, h⟩
  | succ m ih =>
    simp only [List.range'_succ, cholLoop, wp_bind]
    have hbr := h.nr
    have hbc := h.nc
    refine wp_conseq (cholRow_wp b j (by omega) (by omega)) ?_
    rintro ⟨c, d⟩ ⟨hr, hd⟩
    simp only at hr hd ⊢
    have hcr := hr.nr
    have hcc := hr.nc
    rw [Arr2.at_ok (by omega) (by omega)]
    simp only [wp_ok]
    have hpd : c.get j j - d = pivot A c j := by
      unfold pivot
      rw [hd, hr.frame j j (by omega), h.frame j j (by omega)]
    rw [hpd]
    cases hle : NdFloat.le (pivot A c j) 0 with
    | true =>
      simp only [if_true, wp_ok]
      right
      obtain ⟨h1, h2, h3, h4, h5, h6⟩ := h.row hr
      exact ⟨rfl, j, by omega, h1, h2, h3, h4, h5, h6, hle⟩
    | false =>
      simp only [Bool.false_eq_true, if_false, wp_bind]
      rw [Arr2.atm_ok (by omega) (by omega)]
      simp only [wp_ok]
      exact ih _ (j + 1) (by omega) (h.succ hr hle)

theorem choleskyInplaceDirty_wp (A : Arr2 α) (h : A.nr = A.nc) :
    Succeeds (choleskyInplaceDirty A) (CholPost A.nr A) := by
  unfold choleskyInplaceDirty
  rw [checkSquare_ok h]
  simp only [List.range_eq_range']
  exact cholLoop_wp A A A.nr A.nr 0 le_rfl (by omega) (by omega) (CholRows.zero A)

theorem choleskyInplaceDirty_notSquare (A : Arr2 α) (h : A.nr ≠ A.nc) :
    choleskyInplaceDirty A = .ok (A, some (.notSquare A.nr A.nc)) := by
  unfold choleskyInplaceDirty
  rw [checkSquare_err h]

/-- Outcome of `cholesky_dirty` on a square matrix. -/
theorem choleskyDirty_cases (A : Arr2 α) (h : A.nr = A.nc) :
    (∃ b, choleskyDirty A = .ok b ∧ CholRows A.nr A b ∧ choleskyInplaceDirty A = .ok (b, none)) ∨
    (choleskyDirty A = .error (.err .notPositiveDefinite) ∧
      ∃ b j, j < A.nr ∧ CholFailed j A b ∧
        choleskyInplaceDirty A = .ok (b, some .notPositiveDefinite)) := by
  obtain ⟨⟨b, e⟩, hp, hpost⟩ := succeeds_iff.1 (choleskyInplaceDirty_wp A h)
  unfold choleskyDirty
  rw [hp]
  rcases hpost with ⟨he, hr⟩ | ⟨he, j, hj, hf⟩
  · left
    simp only at he hr
    subst he
    exact ⟨b, rfl, hr, rfl⟩
  · right
    simp only at he hf
    subst he
    exact ⟨rfl, b, j, hj, hf, rfl⟩

/-- Zeroing the strict upper triangle of the result. -/
def cleanLower (b : Arr2 α) : Arr2 α :=
  ⟨b.nr, b.nc, fun k l => if k < b.nr ∧ k < l ∧ l < b.nr then 0 else b.get k l⟩

theorem cholesky_cases (A : Arr2 α) (h : A.nr = A.nc) :
    (∃ b, cholesky A = .ok (cleanLower b) ∧ CholRows A.nr A b ∧ choleskyDirty A = .ok b ∧
      choleskyInplace A = .ok (cleanLower b, none)) ∨
    (cholesky A = .error (.err .notPositiveDefinite) ∧
      choleskyDirty A = .error (.err .notPositiveDefinite) ∧
      ∃ b j, j < A.nr ∧ CholFailed j A b ∧
        choleskyInplace A = .ok (b, some .notPositiveDefinite) ∧
        choleskyInplaceDirty A = .ok (b, some .notPositiveDefinite)) := by
  rcases choleskyDirty_cases A h with ⟨b, h1, h2, h3⟩ | ⟨h1, b, j, h2, h3, h4⟩
  · left
    refine ⟨b, ?_, h2, h1, ?_⟩
    · unfold cholesky choleskyInplace
      rw [h3]
      simp only [ok_bind]
      rw [triangularInplace_lower b (by rw [h2.nr, h2.nc, h])]
      rfl
    · unfold choleskyInplace
      rw [h3]
      simp only [ok_bind]
      rw [triangularInplace_lower b (by rw [h2.nr, h2.nc, h])]
      rfl
  · right
    refine ⟨?_, h1, b, j, h2, h3, ?_, h4⟩
    · unfold cholesky choleskyInplace
      rw [h4]
      rfl
    · unfold choleskyInplace
      rw [h4]
      rfl

theorem choleskyDirty_notSquare (A : Arr2 α) (h : A.nr ≠ A.nc) :
    choleskyDirty A = .error (.err (.notSquare A.nr A.nc)) := by
  unfold choleskyDirty
  rw [choleskyInplaceDirty_notSquare A h]
  rfl

theorem choleskyInplace_notSquare (A : Arr2 α) (h : A.nr ≠ A.nc) :
    choleskyInplace A = .ok (A, some (.notSquare A.nr A.nc)) := by
  unfold choleskyInplace
  rw [choleskyInplaceDirty_notSquare A h]
  rfl

theorem cholesky_notSquare (A : Arr2 α) (h : A.nr ≠ A.nc) :
    cholesky A = .error (.err (.notSquare A.nr A.nc)) := by
  unfold cholesky
  rw [choleskyInplace_notSquare A h]
  rfl

/-- Same shape and same entries on and below the diagonal. -/
def LowAgree (a b : Arr2 α) : Prop :=
  a.nr = b.nr ∧ a.nc = b.nc ∧ ∀ r c, r < a.nr → c < a.nc → c ≤ r → a.get r c = b.get r c

omit [Zero α] [One α] [Add α] [Sub α] [Mul α] [Div α] [Neg α] [NdFloat α] in
theorem LowAgree.at {a b : Arr2 α} (h : LowAgree a b) (r c : Nat) (hrc : c ≤ r) :
    a.at r c = b.at r c := by
  unfold Arr2.at
  rw [← h.1, ← h.2.1]
  by_cases hb : r < a.nr ∧ c < a.nc
  · rw [if_pos hb, if_pos hb, h.2.2 r c hb.1 hb.2 hrc]
  · rw [if_neg hb, if_neg hb]

omit [Zero α] [One α] [Add α] [Sub α] [Mul α] [Div α] [Neg α] [NdFloat α] in
theorem LowAgree.atm {a b : Arr2 α} (h : LowAgree a b) (r c : Nat) (v : α) :
    RelM LowAgree (a.atm r c v) (b.atm r c v) := by
  unfold Arr2.atm
  rw [← h.1, ← h.2.1]
  by_cases hb : r < a.nr ∧ c < a.nc
  · rw [if_pos hb, if_pos hb]
    refine ⟨h.1, h.2.1, ?_⟩
    intro r' c' hr hc hrc
    rw [Arr2.upd_get, Arr2.upd_get, h.2.2 r' c' hr hc hrc]
  · rw [if_neg hb, if_neg hb]; rfl

theorem relM_refl {β : Type} {R : β → β → Prop} (hR : ∀ b, R b b) (m : M β) : RelM R m m := by
  cases m
  · rfl
  · exact hR _

theorem relM_eq_iff {β : Type} {m m' : M β} : RelM Eq m m' ↔ m = m' := by
  cases m <;> cases m' <;> simp [RelM]

theorem cholDot_congr {a b : Arr2 α} (h : LowAgree a b) (k j : Nat) (hkj : k ≤ j) :
    cholDot a k j = cholDot b k j := by
  unfold cholDot
  apply forRange_congr
  intro i _ hi s
  rw [h.at k i (by omega), h.at j i (by omega)]

theorem cholRow_rel {a b : Arr2 α} (h : LowAgree a b) (j : Nat) :
    RelM (fun p q => LowAgree p.1 q.1 ∧ p.2 = q.2) (cholRow j a) (cholRow j b) := by
  unfold cholRow
  refine relM_forRange ⟨h, rfl⟩ ?_
  rintro k _ hk ⟨a', d⟩ ⟨b', d'⟩ ⟨h', hd⟩
  simp only at h' hd ⊢
  subst hd
  rw [cholDot_congr h' k j (by omega), h'.at j k (by omega), h'.at k k (by omega)]
  refine relM_bind (R := Eq) (relM_eq_iff.2 rfl) ?_
  rintro s _ rfl
  refine relM_bind (R := Eq) (relM_eq_iff.2 rfl) ?_
  rintro x _ rfl
  refine relM_bind (R := Eq) (relM_eq_iff.2 rfl) ?_
  rintro y _ rfl
  refine relM_bind (h'.atm j k _) ?_
  intro a'' b'' h''
  exact ⟨h'', rfl⟩

theorem cholLoop_rel {a b : Arr2 α} (h : LowAgree a b) (js : List Nat) :
    RelM (fun p q => LowAgree p.1 q.1 ∧ p.2 = q.2) (cholLoop js a) (cholLoop js b) := by
  induction js generalizing a b with
  | nil => exact ⟨h, rfl⟩
  | cons j js ih =>
    simp only [cholLoop]
    refine relM_bind (cholRow_rel h j) ?_
    rintro ⟨a', d⟩ ⟨b', d'⟩ ⟨h', hd⟩
    simp only at h' hd ⊢
    subst hd
    rw [h'.at j j le_rfl]
    refine relM_bind (R := Eq) (relM_eq_iff.2 rfl) ?_
    rintro x _ rfl
    cases NdFloat.le (x - d) 0 with
    | true => exact ⟨h', rfl⟩
    | false =>
      simp only [Bool.false_eq_true, if_false]
      exact relM_bind (h'.atm j j _) fun _ _ h'' => ih h''

theorem choleskyInplaceDirty_rel {a b : Arr2 α} (h : LowAgree a b) :
    RelM (fun p q => LowAgree p.1 q.1 ∧ p.2 = q.2) (choleskyInplaceDirty a)
      (choleskyInplaceDirty b) := by
  by_cases hs : a.nr = a.nc
  · unfold choleskyInplaceDirty
    rw [checkSquare_ok hs, checkSquare_ok (a := b) (by rw [← h.1, ← h.2.1, hs]), ← h.1]
    exact cholLoop_rel h _
  · rw [choleskyInplaceDirty_notSquare a hs,
      choleskyInplaceDirty_notSquare b (by rw [← h.1, ← h.2.1]; exact hs), ← h.1, ← h.2.1]
    exact ⟨h, rfl⟩

end LinfaLinalg
