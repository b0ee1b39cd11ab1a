import Verif.Props.Eigh
import Verif.Props.Svd
import Verif.Proofs.EighReal

/-! # Decompositions of diagonal matrices over the reals -/

namespace LinfaLinalg

open Matrix

/-- The reflection axis of a column that is zero below its first entry. -/
theorem reflectionAxisMut_first (col : Arr1 ℝ) (h : 0 < col.len) (hz : ∀ k, 0 < k → k < col.len → col.get k = 0) :
    ∃ w o, reflectionAxisMut col = .ok (w, o) ∧ w.len = col.len ∧ (∀ k, 0 < k → k < col.len → w.get k = 0) ∧
      |o.getD 0| = |col.get 0| ∧ (col.get 0 = 0 → o = none ∧ w.get 0 = 0) := by
  unfold reflectionAxisMut
  simp only [Arr1.dot, if_true, ok_bind]
  rw [Arr1.idx_ok h]
  simp only [ok_bind]
  rw [Arr1.idxSet_ok h]
  simp only [ok_bind]
  have hq : dotTo col.len col.get col.get = col.get 0 * col.get 0 := by
    rw [dotTo_eq, Finset.sum_eq_single 0]
    · intro k hk h0
      rw [hz k (by omega) (Finset.mem_range.1 hk), zero_mul]
    · intro h'; exact absurd (Finset.mem_range.2 h) h'
  have hs : NdFloat.sqrt (col.get 0 * col.get 0) = |col.get 0| := Real.sqrt_mul_self_eq_abs _
  have hsn : NdFloat.signum (col.get 0) * |col.get 0| = col.get 0 := real_signum_mul_abs _
  simp only [hq, hs, hsn]
  by_cases h0 : col.get 0 = 0
  · have hb : (!NdFloat.isZero ((col.get 0 * col.get 0 + NdFloat.abs (col.get 0) * |col.get 0|) *
        (NdFloat.ofRat 2 : ℝ))) = false := by rw [h0]; simp
    rw [hb]
    refine ⟨_, none, rfl, rfl, ?_, by rw [h0]; rfl, fun _ => ⟨rfl, by simp [Arr1.upd_get, h0]⟩⟩
    intro k hk hk'
    simp [Arr1.upd_get, hk.ne', hz k hk hk']
  · have hne : (col.get 0 * col.get 0 + NdFloat.abs (col.get 0) * |col.get 0|) * (NdFloat.ofRat 2 : ℝ) ≠ 0 := by
      have : (NdFloat.abs (col.get 0) : ℝ) = |col.get 0| := rfl
      rw [this, abs_mul_abs_self]
      have := mul_self_pos.2 h0
      simp only [real_ofRat]
      push_cast
      positivity
    have hb : (NdFloat.isZero ((col.get 0 * col.get 0 + NdFloat.abs (col.get 0) * |col.get 0|) *
        (NdFloat.ofRat 2 : ℝ))) = false := by rw [real_isZero]; simpa using hne
    rw [hb]
    refine ⟨_, _, rfl, rfl, ?_, by simp, fun h => absurd h h0⟩
    intro k hk hk'
    simp [Arr1.map, Arr1.upd_get, hk.ne', hz k hk hk']

/-- `clear_column` on a column that is zero below the pivot, when the pivot is zero or the rest of its row is. -/
theorem clearColumn_diag (a : Arr2 ℝ) (icol shift : Nat) (hc : icol < a.nc) (hr : icol + shift < a.nr)
    (hz : ∀ r, icol + shift < r → r < a.nr → a.get r icol = 0)
    (hrow : a.get (icol + shift) icol = 0 ∨ ∀ c, icol < c → c < a.nc → a.get (icol + shift) c = 0) :
    ∃ b d, clearColumn a icol shift = .ok (b, d) ∧ b.nr = a.nr ∧ b.nc = a.nc ∧ |d| = |a.get (icol + shift) icol| ∧
      (∀ r c, icol < c → |b.get r c| = |a.get r c|) := by
  unfold clearColumn
  rw [Arr2.colSlice_ok hr.le le_rfl hc]
  simp only [ok_bind]
  obtain ⟨w, o, hw, hl, hwz, ho, hnone⟩ := reflectionAxisMut_first
    (⟨a.nr - (icol + shift), fun i => a.get (icol + shift + i) icol⟩ : Arr1 ℝ) (by simp; omega) (fun k hk hk' => by
      simp only at hk' ⊢
      exact hz _ (by omega) (by omega))
  simp only at hl hwz ho hnone
  rw [add_zero] at ho hnone
  rw [hw]
  simp only [ok_bind]
  cases o with
  | none =>
    refine ⟨_, _, rfl, rfl, rfl, by simpa using ho, fun r c hcc => ?_⟩
    simp [Arr2.putCol, hcc.ne']
  | some ν =>
    simp only
    obtain ⟨a', ha'⟩ : ∃ a', a' = a.putCol (icol + shift) icol w := ⟨_, rfl⟩
    have hn : a'.nr = a.nr := by rw [ha']; rfl
    have hm : a'.nc = a.nc := by rw [ha']; rfl
    have hg : ∀ r c, icol < c → a'.get r c = a.get r c := fun r c hcc => by
      rw [ha']; simp [Arr2.putCol, hcc.ne']
    rw [← ha']
    rw [Arr2.slice_ok (by omega) le_rfl (by omega) le_rfl]
    simp only [ok_bind]
    rw [reflectCols_eq _ _ _ (by simp only; omega)]
    simp only [ok_bind]
    refine ⟨_, _, rfl, hn, hm, by simpa using ho, fun r c hcc => ?_⟩
    have hrow' : ∀ c, icol < c → c < a.nc → a.get (icol + shift) c = 0 := by
      rcases hrow with h | h
      · exact absurd (hnone h).1 (by simp)
      · exact h
    have hsg : ∀ x : ℝ, |NdFloat.signum x| = 1 := fun x => by rw [real_signum]; split <;> simp
    show |if icol + shift ≤ r ∧ r < icol + shift + (a'.nr - (icol + shift)) ∧ icol + 1 ≤ c ∧
          c < icol + 1 + (a'.nc - (icol + 1)) then _ else _| = _
    by_cases hin : icol + shift ≤ r ∧ r < icol + shift + (a'.nr - (icol + shift)) ∧ icol + 1 ≤ c ∧
          c < icol + 1 + (a'.nc - (icol + 1))
    · rw [if_pos hin]
      simp only [Arr2.map]
      rw [abs_mul, hsg, mul_one]
      split
      · rename_i hin'
        unfold reflEntry
        simp only
        have hsum : dotTo w.len w.get (fun k => a'.get (icol + shift + k) (icol + 1 + (c - (icol + 1)))) = 0 := by
          rw [dotTo_eq]
          refine Finset.sum_eq_zero fun k hk => ?_
          rw [hg _ _ (by omega)]
          rcases Nat.eq_zero_or_pos k with rfl | hk0
          · rw [add_zero, hrow' _ (by omega) (by omega), mul_zero]
          · rw [hwz k hk0 (by rw [← hl]; exact Finset.mem_range.1 hk), zero_mul]
        rw [hsum, hg _ _ (by omega)]
        simp only [sub_zero, zero_mul, add_zero]
        congr 2 <;> omega
      · omega
    · rw [if_neg hin, hg _ _ hcc]

theorem clearRow_diag (a : Arr2 ℝ) (irow shift : Nat) (hr : irow < a.nr) (hc : irow + shift < a.nc)
    (hz : ∀ c, irow + shift < c → c < a.nc → a.get irow c = 0)
    (hcol : a.get irow (irow + shift) = 0 ∨ ∀ r, irow < r → r < a.nr → a.get r (irow + shift) = 0) :
    ∃ b d, clearRow a irow shift = .ok (b, d) ∧ b.nr = a.nr ∧ b.nc = a.nc ∧ |d| = |a.get irow (irow + shift)| ∧
      (∀ r c, irow < r → |b.get r c| = |a.get r c|) := by
  obtain ⟨b, d, h1, h2, h3, h4, h5⟩ := clearColumn_diag a.t irow shift hr hc hz hcol
  refine ⟨b.t, d, ?_, h3, h2, h4, fun r c h => h5 c r h⟩
  unfold clearRow
  rw [h1]; rfl

/-- The bidiagonalization of a diagonal matrix: the diagonal in absolute value, and nothing beside it. -/
theorem bidiagTall_diag {m n : Nat} (a : Arr2 ℝ) (ha : HasShape a m n) (h0 : 1 ≤ n) (h : n ≤ m)
    (hd : ∀ i j, i < m → j < n → i ≠ j → a.get i j = 0) :
    ∃ s, bidiagTall a = .ok s ∧ s.2.1.len = n ∧ s.2.2.len = n - 1 ∧ (∀ i, i < n → |s.2.1.get i| = |a.get i i|) ∧
      ∀ i, i < n - 1 → s.2.2.get i = 0 := by
  obtain ⟨rfl, rfl⟩ := ha
  unfold bidiagTall
  have hw : Succeeds (forRange 0 (a.nc - 1)
      (a, (Arr1.zeros a.nc : Arr1 ℝ), (Arr1.zeros (a.nc - 1) : Arr1 ℝ)) bidiagStep)
      (fun s => BidiagShape a.nr a.nc s ∧
        (∀ r c, a.nc - 1 ≤ r → r < a.nr → a.nc - 1 ≤ c → c < a.nc → |s.1.get r c| = |a.get r c|) ∧
        (∀ k, k < a.nc - 1 → |s.2.1.get k| = |a.get k k|) ∧ ∀ k, k < a.nc - 1 → s.2.2.get k = 0) := by
    refine wp_forRange (fun i (s : Arr2 ℝ × Arr1 ℝ × Arr1 ℝ) => BidiagShape a.nr a.nc s ∧
        (∀ r c, i ≤ r → r < a.nr → i ≤ c → c < a.nc → |s.1.get r c| = |a.get r c|) ∧
        (∀ k, k < i → |s.2.1.get k| = |a.get k k|) ∧ ∀ k, k < i → s.2.2.get k = 0) (Nat.zero_le _)
      ⟨⟨rfl, rfl, rfl, rfl⟩, fun _ _ _ _ _ _ => rfl, fun _ h => by omega, fun _ h => by omega⟩ ?_
    rintro i ⟨b, d, o⟩ _ hi ⟨⟨h1, h2, h3, h4⟩, h5, h6, h7⟩
    simp only at h1 h2 h3 h4 h5 h6 h7
    have hz : ∀ r c, i ≤ r → r < a.nr → i ≤ c → c < a.nc → r ≠ c → b.get r c = 0 := fun r c q1 q2 q3 q4 q5 => by
      have := h5 r c q1 q2 q3 q4
      rwa [hd r c q2 q4 q5, abs_zero, abs_eq_zero] at this
    unfold bidiagStep
    obtain ⟨b', x, e, g1, g2, g3, g4⟩ := clearColumn_diag b i 0 (by omega) (by omega)
      (fun r q1 q2 => hz r i (by omega) (by omega) le_rfl (by omega) (by omega))
      (Or.inr fun c q1 q2 => hz i c le_rfl (by omega) (by omega) (by omega) (by omega))
    simp only [e, ok_bind]
    rw [Arr1.idxSet_ok (by omega)]
    simp only [ok_bind]
    have hz' : ∀ c, i < c → c < a.nc → b'.get i c = 0 := fun c q1 q2 => by
      have := g4 i c q1
      rwa [hz i c le_rfl (by omega) q1.le q2 (by omega), abs_zero, abs_eq_zero] at this
    obtain ⟨b'', y, e, f1, f2, f3, f4⟩ := clearRow_diag b' i 1 (by omega) (by omega)
      (fun c q1 q2 => hz' c (by omega) (by omega)) (Or.inl (hz' _ (by omega) (by omega)))
    simp only [e, ok_bind]
    rw [Arr1.idxSet_ok (by omega)]
    rw [hz' _ (by omega) (by omega), abs_zero, abs_eq_zero] at f3
    subst f3
    refine ⟨⟨by rw [← h1, ← g1, ← f1], by rw [← h2, ← g2, ← f2], h3, h4⟩, ?_, ?_, ?_⟩
    · intro r c q1 q2 q3 q4
      show |b''.get r c| = _
      rw [f4 r c (by omega), g4 r c (by omega), h5 r c (by omega) q2 (by omega) q4]
    · intro k hk
      simp only [Arr1.upd_get]
      split
      · rename_i hki
        rw [g3, add_zero, hki, h5 i i le_rfl (by omega) le_rfl (by omega)]
      · exact h6 k (by omega)
    · intro k hk
      simp only [Arr1.upd_get]
      split
      · rfl
      · exact h7 k (by omega)
  obtain ⟨⟨b, d, o⟩, e, ⟨h1, h2, h3, h4⟩, h5, h6, h7⟩ := succeeds_iff.1 hw
  rw [e]
  simp only [ok_bind] at *
  have hz : ∀ r, a.nc - 1 < r → r < a.nr → b.get r (a.nc - 1) = 0 := fun r q1 q2 => by
    have := h5 r (a.nc - 1) q1.le q2 le_rfl (by omega)
    rwa [hd r _ q2 (by omega) (by omega), abs_zero, abs_eq_zero] at this
  obtain ⟨b', x, e, g1, g2, g3, g4⟩ := clearColumn_diag b (a.nc - 1) 0 (by omega) (by omega)
    (fun r q1 q2 => hz r (by omega) (by omega)) (Or.inr fun c q1 q2 => by omega)
  simp only [e, ok_bind]
  rw [Arr1.idxSet_ok (by omega)]
  refine ⟨_, rfl, h3, h4, ?_, h7⟩
  intro k hk
  simp only [Arr1.upd_get]
  split
  · rename_i hki
    rw [g3, add_zero, hki, h5 _ _ le_rfl (by omega) le_rfl (by omega)]
  · exact h6 k (by omega)

theorem bidiagonal_diag {m n : Nat} (a : Arr2 ℝ) (ha : HasShape a m n) (hm : m ≠ 0) (hn : n ≠ 0)
    (hd : ∀ i j, i < m → j < n → i ≠ j → a.get i j = 0) :
    ∃ b, bidiagonal a = .ok b ∧ b.diagonal.len = min m n ∧ b.offDiagonal.len = min m n - 1 ∧
      (∀ i, i < min m n → |b.diagonal.get i| = |a.get i i|) ∧ ∀ i, i < min m n - 1 → b.offDiagonal.get i = 0 := by
  obtain ⟨rfl, rfl⟩ := ha
  rcases le_or_gt a.nc a.nr with h | h
  · obtain ⟨s, e, h1, h2, h3, h4⟩ := bidiagTall_diag a ⟨rfl, rfl⟩ (by omega) h hd
    obtain ⟨b, hb, rfl⟩ := relM_ok_left (bidiagonal_tall a (by omega) h) e
    rw [min_eq_right h]
    exact ⟨_, hb, h1, h2, h3, h4⟩
  · obtain ⟨s, e, h1, h2, h3, h4⟩ := bidiagTall_diag a.t ⟨rfl, rfl⟩ (by show 1 ≤ a.nr; omega) h.le
      (fun i j hi hj hij => hd j i hj hi (Ne.symm hij))
    obtain ⟨b, hb, rfl⟩ := relM_ok_left (bidiagonal_wide a (by omega) h) e
    rw [min_eq_left h.le]
    exact ⟨_, hb, h1, h2, h3, h4⟩

theorem svdDelimitEnd_zero (up : Bool) (eps : ℝ) : ∀ (n : Nat) (s : SvdData ℝ), n ≤ s.off.len → n < s.diag.len →
    (∀ i, i < n → s.off.get i = 0) → ∃ off, svdDelimitEnd up eps n s = .ok ({ s with off := off }, 0) := by
  intro n
  induction n with
  | zero => intro s _ _ _; exact ⟨s.off, rfl⟩
  | succ m ih =>
    intro s h1 h2 h3
    unfold svdDelimitEnd
    rw [Arr1.at_ok (by omega), Arr1.at_ok h2, Arr1.at_ok (by omega)]
    simp only [ok_bind]
    rw [h3 m (by omega)]
    simp only [real_isZero, decide_true, Bool.true_or, if_true]
    rw [Arr1.atm_ok (by omega)]
    simp only [ok_bind]
    obtain ⟨off, h⟩ := ih { s with off := s.off.upd m 0 } (by simp only [Arr1.upd_len]; omega) (by simp only; omega)
      (fun i hi => by simp only [Arr1.upd_get]; split <;> [rfl; exact h3 i (by omega)])
    exact ⟨off, h⟩

theorem fixSigns_nonneg (dim : Nat) (diag : Arr1 ℝ) (u : Option (Arr2 ℝ)) (h : dim ≤ diag.len)
    (hn : ∀ i, i < dim → 0 ≤ diag.get i) : fixSigns dim diag u = .ok (diag, u) := by
  unfold fixSigns
  have hw : Succeeds (forRange 0 dim (diag, u) fun i (p : Arr1 ℝ × Option (Arr2 ℝ)) => do
      let val ← p.1.idx i
      if NdFloat.isSignNeg val then do
        let diag ← p.1.idxSet i (-val)
        let u ← scaleCol i (-(0 : ℝ)) p.2
        .ok (diag, u)
      else .ok p) (fun p => p = (diag, u)) := by
    refine wp_forRange (fun _ p => p = (diag, u)) (Nat.zero_le _) rfl ?_
    rintro i _ _ hi rfl
    simp only
    rw [Arr1.idx_ok (by omega)]
    simp only [ok_bind, real_isSignNeg]
    rw [if_neg (by simpa using hn i hi)]
    rfl
  obtain ⟨p, hp, rfl⟩ := succeeds_iff.1 hw
  exact hp

/-- One step of the tridiagonalization on a matrix whose column is already zero below the diagonal. -/
theorem tridiagStep_diag (i : Nat) (a : Arr2 ℝ) (off p : Arr1 ℝ) (hc : i < a.nc) (hr : i + 1 < a.nr) (ho : i < off.len)
    (hs : i + 1 ≤ a.nc) (hz : ∀ r, i < r → r < a.nr → a.get r i = 0) :
    ∃ a', tridiagStep i a off p = .ok (a', off.upd i 0, p) ∧ a'.nr = a.nr ∧ a'.nc = a.nc ∧
      ∀ r c, r < a.nr → a'.get r c = a.get r c := by
  unfold tridiagStep
  rw [Arr2.colSlice_ok hr.le le_rfl hc]
  simp only [ok_bind]
  rw [Arr2.slice_ok hr.le le_rfl hs le_rfl]
  simp only [ok_bind]
  obtain ⟨w, o, hw, hl, hwz, -, hnone⟩ := reflectionAxisMut_first
    (⟨a.nr - (i + 1), fun k => a.get (i + 1 + k) i⟩ : Arr1 ℝ) (by simp; omega) (fun k hk hk' => by
      simp only at hk' ⊢; exact hz _ (by omega) (by omega))
  simp only at hl hwz hnone
  obtain ⟨rfl, hw0⟩ := hnone (hz _ (by omega) (by omega))
  simp only [hw, ok_bind]
  rw [Arr1.idxSet_ok ho]
  simp only [ok_bind, Option.isSome_none, Option.getD_none]
  refine ⟨_, rfl, rfl, rfl, fun r c hrr => ?_⟩
  simp only [Arr2.putCol]
  split
  · rename_i h
    obtain ⟨h1, h2, h3⟩ : i + 1 ≤ r ∧ r < i + 1 + w.len ∧ c = i := by omega
    subst h3
    rw [hz r (by omega) hrr]
    rcases Nat.eq_zero_or_pos (r - (c + 1)) with h0 | h0
    · rw [h0, hw0]
    · rw [hwz _ h0 (by omega)]
  · rfl

theorem symTridiagonal_diag {n : Nat} (a : Arr2 ℝ) (ha : HasShape a n n) (hn : 1 ≤ n)
    (hd : ∀ i j, i < n → j < n → i ≠ j → a.get i j = 0) :
    ∃ t, symTridiagonal a = .ok t ∧ HasShape t.diagMatrix n n ∧ t.offDiagonal.len = n - 1 ∧
      (∀ r c, r < n → t.diagMatrix.get r c = a.get r c) ∧ ∀ i, i < n - 1 → t.offDiagonal.get i = 0 := by
  obtain ⟨h1, h2⟩ := ha
  unfold symTridiagonal
  rw [checkSquare_ok (h1.trans h2.symm)]
  simp only [ok_bind]
  rw [if_neg (by omega)]
  have hw : Succeeds (forRange 0 (a.nr - 1)
      (a, (Arr1.zeros (a.nr - 1) : Arr1 ℝ), (Arr1.zeros (a.nr - 1) : Arr1 ℝ))
      fun i (s : Arr2 ℝ × Arr1 ℝ × Arr1 ℝ) => tridiagStep i s.1 s.2.1 s.2.2)
      (fun s => HasShape s.1 n n ∧ s.2.1.len = n - 1 ∧ (∀ r c, r < n → s.1.get r c = a.get r c) ∧
        ∀ i, i < a.nr - 1 → s.2.1.get i = 0) := by
    refine wp_forRange (fun i (s : Arr2 ℝ × Arr1 ℝ × Arr1 ℝ) => HasShape s.1 n n ∧ s.2.1.len = n - 1 ∧
        (∀ r c, r < n → s.1.get r c = a.get r c) ∧ ∀ k, k < i → s.2.1.get k = 0) (Nat.zero_le _)
      ⟨⟨h1, h2⟩, by simp [Arr1.zeros, h1], fun _ _ _ => rfl, fun _ h => by omega⟩ ?_
    rintro i ⟨b, o, p⟩ _ hi ⟨⟨q1, q2⟩, q3, q4, q5⟩
    simp only at q1 q2 q3 q4 q5 ⊢
    obtain ⟨b', e, f1, f2, f3⟩ := tridiagStep_diag i b o p (by omega) (by omega) (by omega) (by omega)
      (fun r hr hr' => by rw [q4 r i (by omega)]; exact hd r i (by omega) (by omega) (by omega))
    rw [e]
    refine ⟨⟨f1.trans q1, f2.trans q2⟩, q3, fun r c hr => by rw [← q4 r c hr]; exact f3 r c (by omega), fun k hk => ?_⟩
    simp only [Arr1.upd_get]
    split
    · rfl
    · exact q5 k (by omega)
  obtain ⟨⟨b, o, p⟩, e, q1, q2, q3, q4⟩ := succeeds_iff.1 hw
  have e' : forRange 0 (a.nr - 1)
      (a, (Arr1.zeros (a.nr - 1) : Arr1 ℝ), (Arr1.zeros (a.nr - 1) : Arr1 ℝ))
      (fun i (a, off, p) => tridiagStep i a off p) = .ok (b, o, p) := e
  rw [e']
  exact ⟨_, rfl, q1, q2, q3, fun i hi => q4 i (by omega)⟩

theorem generateQ_diag {n : Nat} (t : TridiagonalDecomp ℝ) (ht : HasShape t.diagMatrix n n) (hn : 1 ≤ n)
    (hl : t.offDiagonal.len = n - 1) (hd : ∀ i j, i < n → j < n → i ≠ j → t.diagMatrix.get i j = 0)
    (ho : ∀ i, i < n - 1 → t.offDiagonal.get i = 0) :
    ∃ q, t.generateQ = .ok q ∧ HasShape q n n ∧ toMat n n q = 1 := by
  have hz : ∀ k r, k < n - 1 → r < n → (if k + 1 ≤ r then t.diagMatrix.get r k else 0) = 0 := fun k r hk hr => by
    split
    · exact hd r k hr (by omega) (by omega)
    · rfl
  obtain ⟨q, h1, h2, h3⟩ := assembleQ_real' (m := n) (D := n) t.diagMatrix 1 (fun i => t.offDiagonal.idx i)
    t.offDiagonal.get ht.1 (by rw [ht.1, ht.2, min_self]) hn (fun i hi => Arr1.idx_ok (by omega)) (fun k hk => by
      refine ⟨fun r hr => if_neg (by omega), ?_, fun r hr => by rw [hz k r hk hr, zero_mul]⟩
      rw [ho k hk, real_signum]; norm_num)
  refine ⟨q, h1, h2, ?_⟩
  have hP : ∀ k, k < n - 1 → storedP n t.diagMatrix 1 t.offDiagonal.get k = 1 := fun k hk => by
    ext r c
    simp only [storedP, house, Matrix.of_apply]
    rw [hz k r hk r.2, ho k hk, real_signum]
    simp [Matrix.one_apply]
  have hP' : ∀ m, m ≤ n - 1 → prodP (storedP n t.diagMatrix 1 t.offDiagonal.get) m = 1 := by
    intro m
    induction m with
    | zero => intro _; rfl
    | succ k ih => intro hk; rw [prodP, ih (by omega), hP k (by omega), one_mul]
  rw [h3, hP' _ le_rfl, one_mul]
  ext r c
  simp [eyeMat, Matrix.one_apply, Fin.ext_iff]

theorem delimitEnd_zero (diag off : Arr1 ℝ) (eps : ℝ) (he : 0 ≤ eps) : ∀ n, n < diag.len → n ≤ off.len →
    (∀ i, i < n → off.get i = 0) → delimitEnd diag off eps n = .ok 0 := by
  intro n
  induction n with
  | zero => intro _ _ _; rfl
  | succ m ih =>
    intro h1 h2 h3
    unfold delimitEnd
    rw [Arr1.at_ok (by omega), Arr1.at_ok h1, Arr1.at_ok (by omega)]
    simp only [ok_bind]
    rw [h3 m (by omega)]
    have : ¬ eps * (|diag.get (m + 1)| + |diag.get m|) < |(0 : ℝ)| := by
      rw [abs_zero]; exact not_lt.2 (by positivity)
    rw [if_neg (by simpa using this)]
    exact ih (by omega) (by omega) fun i hi => h3 i (by omega)

theorem symmetricEig_diag {n : Nat} (fuel : Nat) (a : Arr2 ℝ) (ev : Bool) (eps : ℝ) (he : 0 ≤ eps) (ha : HasShape a n n)
    (hn : 1 ≤ n) (hd : ∀ i j, i < n → j < n → i ≠ j → a.get i j = 0) :
    ∃ v q, symmetricEig fuel a ev eps = .ok (v, q) ∧ v.len = n ∧ (∀ i, i < n → v.get i = a.get i i) ∧
      q.isSome = ev ∧ ∀ x, q = some x → HasShape x n n ∧ toMat n n x = 1 := by
  obtain ⟨s1, s2, -, s4⟩ := scaleDown_real a ha hn hn
  have hsd : ∀ i j, i < n → j < n → i ≠ j → (a.scaleDown a.amax).get i j = 0 := fun i j hi hj hij => by
    have := congrFun (congrFun s4 ⟨i, hi⟩) ⟨j, hj⟩
    simp only [Matrix.smul_apply, toMat_apply, smul_eq_mul] at this
    rw [this, hd i j hi hj hij, mul_zero]
  have hval : ∀ i, i < n → (a.scaleDown a.amax).get i i * a.amax = a.get i i := fun i hi => by
    have := congrFun (congrFun s2 ⟨i, hi⟩) ⟨i, hi⟩
    simp only [Matrix.smul_apply, toMat_apply, smul_eq_mul] at this
    rw [this, mul_comm]
  obtain ⟨t', e', t1, t2, t3, t4⟩ := symTridiagonal_diag (a.scaleDown a.amax) s1 hn hsd
  obtain ⟨t, e, -, q, -, hq, hgen, hone, hmany⟩ := symmetricEig_cases fuel a ev eps (ha.1.trans ha.2.symm)
    (by rw [ha.1]; exact hn)
  rw [e'] at e; cases e
  obtain ⟨Q, g1, g2, g3⟩ := generateQ_diag t' t1 hn t2 (fun i j hi hj hij => by rw [t3 i j hi]; exact hsd i j hi hj hij) t4
  have hfin : ∀ x, q = some x → HasShape x n n ∧ toMat n n x = 1 := fun x hx => by
    have := hgen x hx
    rw [g1] at this; cases this
    exact ⟨g2, g3⟩
  have hlen : t'.intoDiagonals.1.len = n := by
    simp [TridiagonalDecomp.intoDiagonals, Arr2.diag, t1.1, t1.2]
  have hv : ∀ i, i < n → t'.intoDiagonals.1.get i * a.amax = a.get i i := fun i hi => by
    rw [← hval i hi, ← t3 i i hi]; rfl
  rw [ha.1] at hone hmany
  by_cases h1 : n = 1
  · exact ⟨_, _, hone h1, hlen, hv, hq, hfin⟩
  · obtain ⟨off, s, e, d1, -, -, d2⟩ := hmany h1
    have hdel : delimitSubproblem t'.intoDiagonals.1 t'.intoDiagonals.2 (n - 1) eps = .ok (t'.intoDiagonals.2, 0, 0) := by
      unfold delimitSubproblem
      rw [delimitEnd_zero _ _ eps he _ (by omega) (by show n - 1 ≤ t'.offDiagonal.len; omega) (fun i hi => by
        show |t'.offDiagonal.get i| = 0
        rw [t4 i hi, abs_zero])]
      rfl
    rw [hdel] at d1
    cases d1
    rw [d2]
    have : ∀ fuel, eigLoop eps fuel ⟨t'.intoDiagonals.1, t'.intoDiagonals.2, q, 0, 0⟩ =
        .ok ⟨t'.intoDiagonals.1, t'.intoDiagonals.2, q, 0, 0⟩ := fun fuel => by cases fuel <;> simp [eigLoop]
    rw [this]
    exact ⟨_, _, rfl, hlen, hv, hq, hfin⟩

theorem svdGo_diag {m n : Nat} (fuel : Nat) (a : Arr2 ℝ) (cu cv : Bool) (eps : ℝ) (ha : HasShape a m n)
    (hm : m ≠ 0) (hn : n ≠ 0) (hd : ∀ i j, i < m → j < n → i ≠ j → a.get i j = 0) :
    ∃ u s vt, svdGo fuel a cu cv eps = .ok (u, s, vt) ∧ s.len = min m n ∧ (∀ i, i < min m n → s.get i = |a.get i i|) ∧
      u.isSome = cu ∧ vt.isSome = cv ∧
      ∀ U V, u = some U → vt = some V → HasShape U m (min m n) ∧ HasShape V (min m n) n ∧
        (toMat m (min m n) U)ᵀ * toMat m (min m n) U = 1 ∧ toMat (min m n) n V * (toMat (min m n) n V)ᵀ = 1 ∧
        toMat m n a = toMat m (min m n) U * Matrix.diagonal (fun i : Fin (min m n) => s.get i) * toMat (min m n) n V := by
  obtain ⟨s1, s2, -, s4⟩ := scaleDown_real a ha (by omega) (by omega)
  have hamax : 0 ≤ a.amax := by
    obtain ⟨-, i, j, -, -, h⟩ := amax_real a (by rw [ha.1]; omega) (by rw [ha.2]; omega)
    rw [← h]; exact abs_nonneg _
  have hsd : ∀ i j, i < m → j < n → i ≠ j → (a.scaleDown a.amax).get i j = 0 := fun i j hi hj hij => by
    have := congrFun (congrFun s4 ⟨i, hi⟩) ⟨j, hj⟩
    simp only [Matrix.smul_apply, toMat_apply, smul_eq_mul] at this
    rw [this, hd i j hi hj hij, mul_zero]
  have hval : ∀ i, i < min m n → |(a.scaleDown a.amax).get i i| * a.amax = |a.get i i| := fun i hi => by
    have := congrFun (congrFun s2 ⟨i, by omega⟩) ⟨i, by omega⟩
    simp only [Matrix.smul_apply, toMat_apply, smul_eq_mul] at this
    rw [this, abs_mul, abs_of_nonneg hamax, mul_comm]
  obtain ⟨b', e', t1, t2, t3, t4⟩ := bidiagonal_diag (a.scaleDown a.amax) s1 hm hn hsd
  obtain ⟨b, U, Vt, e1, e2, e3, -, -, hgo⟩ := svdGo_eq a (by rw [ha.1]; exact hm) (by rw [ha.2]; exact hn)
  rw [e'] at e1; cases e1
  rw [ha.1, ha.2] at hgo
  obtain ⟨off, hdel⟩ := svdDelimitEnd_zero (decide (n ≤ m)) eps (min m n - 1) ⟨b'.intoDiagonals.1, b'.intoDiagonals.2,
      if cu then some U else none, if cv then some Vt else none⟩ (by show _ ≤ b'.offDiagonal.len; omega)
    (by show _ < b'.diagonal.len; omega) (fun i hi => by
      show |b'.offDiagonal.get i| = 0
      rw [t4 i hi, abs_zero])
  have hloop : ∀ s, svdLoop (decide (n ≤ m)) cu cv eps fuel ⟨s, 0, 0⟩ = .ok ⟨s, 0, 0⟩ := fun s => by
    cases fuel <;> simp [svdLoop]
  have hget : ∀ i, i < min m n → (b'.intoDiagonals.1.map fun x => x * a.amax).get i = |a.get i i| := fun i hi => by
    show |b'.diagonal.get i| * a.amax = _
    rw [t3 i hi, hval i hi]
  refine ⟨if cu then some U else none, b'.intoDiagonals.1.map (fun x => x * a.amax), if cv then some Vt else none, ?_, t1,
    hget, by cases cu <;> rfl, by cases cv <;> rfl, ?_⟩
  · rw [hgo]
    unfold svdDelimit
    rw [hdel]
    simp only [ok_bind, if_true]
    rw [hloop]
    simp only [ok_bind]
    rw [fixSigns_nonneg _ _ _ (by show _ ≤ b'.diagonal.len; omega) (fun i hi => by rw [hget i hi]; exact abs_nonneg _)]
    rfl
  · intro U' V' hU hV
    obtain ⟨b, U₁, V₁, f1, f2, f3, -, -, -, g1, g2, g3, g4, g5⟩ := bidiagonal_real (a.scaleDown a.amax) s1 (by omega)
    rw [e'] at f1; cases f1
    rw [e2] at f2; cases f2
    rw [e3] at f3; cases f3
    cases cu <;> simp at hU
    cases cv <;> simp at hV
    subst hU hV
    refine ⟨g1, g2, g3, g4, ?_⟩
    have hB : Matrix.diagonal (fun i : Fin (min m n) => (b'.intoDiagonals.1.map fun x => x * a.amax).get i) =
        a.amax • b'.bMat (min m n) := by
      have hb : bidiag (min m n) (fun i => |b'.diagonal.get i|) (fun i => |b'.offDiagonal.get i|) =
          Matrix.diagonal fun i : Fin (min m n) => |b'.diagonal.get i| := by
        ext i j
        simp only [bidiag, Matrix.of_apply, Matrix.diagonal_apply, Fin.ext_iff]
        split
        · rfl
        · split
          · rw [t4 _ (by omega), abs_zero]
          · rfl
      have hb' : b'.bMat (min m n) = Matrix.diagonal fun i : Fin (min m n) => |b'.diagonal.get i| := by
        unfold BidiagonalDecomp.bMat
        rw [hb]
        split
        · rfl
        · exact Matrix.diagonal_transpose _
      rw [hb', Matrix.smul_eq_diagonal_mul, Matrix.diagonal_mul_diagonal]
      congr 1
      funext i
      exact mul_comm _ _
    rw [hB, Matrix.mul_smul, Matrix.smul_mul, g5, ← s2]

end LinfaLinalg
