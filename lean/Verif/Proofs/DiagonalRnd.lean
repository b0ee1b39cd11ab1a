import Verif.Proofs.Diagonal
import Verif.Proofs.RoundedEighLoop

/-! # Decompositions of diagonal matrices with rounding errors -/

namespace LinfaLinalg

open Matrix

variable {R : StdModel}

/-- `|x|` is `|y|` up to `n` roundings. -/
def NearAbs (R : StdModel) (n : Nat) (x y : ℝ) : Prop := ∃ t, Near R.u n t ∧ |x| = |y| * t

theorem NearAbs.refl (n : Nat) (x : ℝ) : NearAbs R n x x :=
  ⟨1, near_one R.u_nonneg R.u_lt_one n, (mul_one _).symm⟩

theorem NearAbs.trans {k l : Nat} {x y z : ℝ} (h : NearAbs R k x y) (h' : NearAbs R l y z) : NearAbs R (k + l) x z := by
  obtain ⟨t, ht, e⟩ := h
  obtain ⟨s, hs, e'⟩ := h'
  refine ⟨s * t, ?_, by rw [e, e', mul_assoc]⟩
  rw [add_comm]
  exact hs.mul R.u_nonneg R.u_lt_one ht

theorem NearAbs.mono {k l : Nat} {x y : ℝ} (h : NearAbs R k x y) (hkl : k ≤ l) : NearAbs R l x y := by
  obtain ⟨t, ht, e⟩ := h
  exact ⟨t, ht.mono R.u_nonneg R.u_lt_one hkl, e⟩

theorem NearAbs.zero {k : Nat} {x y : ℝ} (h : NearAbs R k x y) (hy : y = 0) : x = 0 := by
  obtain ⟨t, -, e⟩ := h
  rwa [hy, abs_zero, zero_mul, abs_eq_zero] at e

theorem NearAbs.rnd (x : ℝ) : NearAbs R 1 (R.rnd x) x := by
  obtain ⟨t, ht, e⟩ := R.rnd_near x
  exact ⟨t, ht, by rw [e, abs_mul, abs_of_pos (ht.pos R.u_nonneg R.u_lt_one)]⟩

theorem NearAbs.congr {k : Nat} {x y x' y' : ℝ} (h : NearAbs R k x y) (hx : |x'| = |x|) (hy : |y'| = |y|) :
    NearAbs R k x' y' := by
  obtain ⟨t, ht, e⟩ := h
  exact ⟨t, ht, by rw [hx, hy, e]⟩

/-- An inner product in which one product only is not zero. -/
theorem dotTo_single_rnd (n i : Nat) (f g : Nat → Rnd R) (hi : i < n)
    (hz : ∀ k, k < n → k ≠ i → (f k).v * (g k).v = 0) :
    ∃ t, Near R.u (n + 1) t ∧ (dotTo n f g).v = (f i).v * (g i).v * t := by
  obtain ⟨q, hq, e⟩ := dotTo_products n f g
  refine ⟨q i, hq i, ?_⟩
  rw [e, Finset.sum_eq_single i]
  · intro k hk h0
    rw [hz k (Finset.mem_range.1 hk) h0, zero_mul]
  · intro h'; exact absurd (Finset.mem_range.2 hi) h'

theorem dotTo_zero_rnd (n : Nat) (f g : Nat → Rnd R) (hz : ∀ k, k < n → (f k).v * (g k).v = 0) :
    (dotTo n f g).v = 0 := by
  obtain ⟨q, -, e⟩ := dotTo_products n f g
  rw [e]
  exact Finset.sum_eq_zero fun k hk => by rw [hz k (Finset.mem_range.1 hk), zero_mul]

/-- The reflection axis of a column that is zero below its first entry. -/
theorem reflectionAxisMut_first_rnd (col : Arr1 (Rnd R)) (h : 0 < col.len)
    (hz : ∀ k, 0 < k → k < col.len → (col.get k).v = 0) :
    ∃ w o, reflectionAxisMut col = .ok (w, o) ∧ w.len = col.len ∧ (∀ k, 0 < k → k < col.len → (w.get k).v = 0) ∧
      NearAbs R (col.len + 3) (o.getD 0).v (col.get 0).v ∧ ((col.get 0).v = 0 → o = none ∧ (w.get 0).v = 0) := by
  unfold reflectionAxisMut
  simp only [Arr1.dot, if_true, ok_bind]
  rw [Arr1.idx_ok h]
  simp only [ok_bind]
  rw [Arr1.idxSet_ok h]
  simp only [ok_bind]
  obtain ⟨t, ht, hq⟩ := dotTo_single_rnd col.len 0 col.get col.get h (fun k hk h0 => by
    rw [hz k (by omega) hk, zero_mul])
  have tp := ht.pos R.u_nonneg R.u_lt_one
  obtain ⟨N, hN⟩ : ∃ N, N = dotTo col.len col.get col.get := ⟨_, rfl⟩
  rw [← hN] at hq ⊢
  have hz' : ∀ (x : Rnd R) k, 0 < k → k < col.len → ((col.upd 0 x).get k).v = 0 := fun x k hk hk' => by
    simp [Arr1.upd_get, hk.ne', hz k hk hk']
  by_cases h0 : (col.get 0).v = 0
  · have hN0 : N.v = 0 := by rw [hq, h0]; ring
    have hs0 : (NdFloat.sqrt N).v = 0 := by rw [Rnd.sqrt_v, hN0, Real.sqrt_zero, R.rnd_zero]
    have hb : (!NdFloat.isZero ((N + NdFloat.abs (col.get 0) * NdFloat.sqrt N) * NdFloat.ofRat 2)) = false := by
      simp only [Rnd.isZero_v, Rnd.mul_v, Rnd.add_v, Rnd.abs_v, hs0, hN0, h0]
      simp [R.rnd_zero]
    rw [hb]
    refine ⟨_, none, rfl, rfl, fun k hk hk' => hz' _ k hk hk', ?_, fun _ => ⟨rfl, ?_⟩⟩
    · rw [h0]; exact NearAbs.refl _ _
    · simp only [Arr1.upd_get, if_true, Rnd.add_v, Rnd.mul_v, hs0, h0]
      simp [R.rnd_zero]
  · have hx : 0 < (col.get 0).v * (col.get 0).v := mul_self_pos.2 h0
    have hNp : 0 < N.v := by rw [hq]; exact mul_pos hx tp
    have hsp : 0 < (NdFloat.sqrt N).v := by rw [Rnd.sqrt_v]; exact R.rnd_pos (Real.sqrt_pos.2 hNp)
    have hb : NdFloat.isZero ((N + NdFloat.abs (col.get 0) * NdFloat.sqrt N) * (NdFloat.ofRat 2 : Rnd R)) = false := by
      have h1 : 0 < ((NdFloat.abs (col.get 0) : Rnd R) * NdFloat.sqrt N).v := by
        rw [Rnd.mul_v, Rnd.abs_v]; exact R.rnd_pos (mul_pos (abs_pos.2 h0) hsp)
      have h2 : 0 < (N + NdFloat.abs (col.get 0) * NdFloat.sqrt N).v := by
        rw [Rnd.add_v]; exact R.rnd_pos (by linarith)
      have h3 : 0 < (NdFloat.ofRat 2 : Rnd R).v := R.rnd_pos (by norm_num)
      rw [Rnd.isZero_v, Rnd.mul_v]
      exact decide_eq_false (R.rnd_pos (mul_pos h2 h3)).ne'
    rw [hb]
    refine ⟨_, _, rfl, rfl, fun k hk hk' => ?_, ?_, fun h => absurd h h0⟩
    · simp only [Arr1.map, Rnd.div_v, hz' _ k hk hk', zero_div, R.rnd_zero]
    · simp only [Option.getD_some, Rnd.neg_v, Rnd.mul_v]
      have e1 : NearAbs R (col.len + 1) (Real.sqrt N.v) (col.get 0).v :=
        ⟨Real.sqrt t, ht.sqrt R.u_nonneg R.u_lt_one, by
          rw [abs_of_nonneg (Real.sqrt_nonneg _), hq, Real.sqrt_mul hx.le, Real.sqrt_mul_self_eq_abs]⟩
      have e2 : NearAbs R 1 (NdFloat.sqrt N).v (Real.sqrt N.v) := NearAbs.rnd _
      have e3 := NearAbs.rnd (R := R) ((NdFloat.signum (col.get 0)).v * (NdFloat.sqrt N).v)
      have e4 : |(NdFloat.signum (col.get 0)).v * (NdFloat.sqrt N).v| = |(NdFloat.sqrt N).v| := by
        rw [abs_mul, Rnd.signum_v]; split <;> simp
      exact (((e3.congr (abs_neg _) e4.symm).trans e2).trans e1).mono (by omega)

/-- `clear_column` on a column that is zero below the pivot, when the pivot is zero or the rest of its row is. -/
theorem clearColumn_diag_rnd (a : Arr2 (Rnd R)) (icol shift : Nat) (hc : icol < a.nc) (hr : icol + shift < a.nr)
    (hz : ∀ r, icol + shift < r → r < a.nr → (a.get r icol).v = 0)
    (hrow : (a.get (icol + shift) icol).v = 0 ∨ ∀ c, icol < c → c < a.nc → (a.get (icol + shift) c).v = 0) :
    ∃ b d, clearColumn a icol shift = .ok (b, d) ∧ b.nr = a.nr ∧ b.nc = a.nc ∧
      NearAbs R (a.nr - (icol + shift) + 3) d.v (a.get (icol + shift) icol).v ∧
      (∀ r c, icol < c → NearAbs R 2 (b.get r c).v (a.get r c).v) ∧
      ((a.get (icol + shift) icol).v = 0 → ∀ r c, icol < c → b.get r c = a.get r c) := by
  unfold clearColumn
  rw [Arr2.colSlice_ok hr.le le_rfl hc]
  simp only [ok_bind]
  obtain ⟨w, o, hw, hl, hwz, ho, hnone⟩ := reflectionAxisMut_first_rnd
    (⟨a.nr - (icol + shift), fun i => a.get (icol + shift + i) icol⟩ : Arr1 (Rnd R)) (by simp; omega) (fun k hk hk' => by
      simp only at hk' ⊢
      exact hz _ (by omega) (by omega))
  simp only at hl hwz ho hnone
  rw [add_zero] at ho hnone
  rw [hw]
  simp only [ok_bind]
  cases o with
  | none =>
    refine ⟨_, _, rfl, rfl, rfl, by simpa using ho, fun r c hcc => ?_, fun _ r c hcc => ?_⟩
    · rw [show (a.putCol (icol + shift) icol w).get r c = a.get r c by simp [Arr2.putCol, hcc.ne']]
      exact NearAbs.refl _ _
    · simp [Arr2.putCol, hcc.ne']
  | some ν =>
    simp only
    obtain ⟨a', ha'⟩ : ∃ a', a' = a.putCol (icol + shift) icol w := ⟨_, rfl⟩
    have hn : a'.nr = a.nr := by rw [ha']; rfl
    have hm : a'.nc = a.nc := by rw [ha']; rfl
    have hg : ∀ r c, icol < c → a'.get r c = a.get r c := fun r c hcc => by
      rw [ha']; simp [Arr2.putCol, hcc.ne']
    rw [← ha']
    rw [Arr2.slice_ok (by omega) le_rfl (by omega) le_rfl]
    simp only [ok_bind]
    rw [reflectCols_eq _ _ _ (by simp only; omega)]
    simp only [ok_bind]
    refine ⟨_, _, rfl, hn, hm, by simpa using ho, fun r c hcc => ?_, fun h => absurd (hnone h).1 (by simp)⟩
    have hrow' : ∀ c, icol < c → c < a.nc → (a.get (icol + shift) c).v = 0 := by
      rcases hrow with h | h
      · exact absurd (hnone h).1 (by simp)
      · exact h
    have hsg : ∀ x : Rnd R, |(NdFloat.signum x).v| = 1 := fun x => by rw [Rnd.signum_v]; split <;> simp
    show NearAbs R 2 (Rnd.v (if icol + shift ≤ r ∧ r < icol + shift + (a'.nr - (icol + shift)) ∧ icol + 1 ≤ c ∧
          c < icol + 1 + (a'.nc - (icol + 1)) then _ else _)) _
    by_cases hin : icol + shift ≤ r ∧ r < icol + shift + (a'.nr - (icol + shift)) ∧ icol + 1 ≤ c ∧
          c < icol + 1 + (a'.nc - (icol + 1))
    · rw [if_pos hin]
      simp only [Arr2.map]
      rw [if_pos (by omega), Rnd.mul_v]
      have hsum : (dotTo w.len w.get (fun k => a'.get (icol + shift + k) (icol + 1 + (c - (icol + 1))))).v = 0 := by
        refine dotTo_zero_rnd _ _ _ fun k hk => ?_
        rw [hg _ _ (by omega)]
        rcases Nat.eq_zero_or_pos k with rfl | hk0
        · rw [add_zero, hrow' _ (by omega) (by omega), mul_zero]
        · rw [hwz k hk0 (by rw [← hl]; exact hk), zero_mul]
      have hent : (reflEntry w 0 (⟨a'.nr - (icol + shift), a'.nc - (icol + 1), fun i j =>
          a'.get (icol + shift + i) (icol + 1 + j)⟩ : Arr2 (Rnd R)) (r - (icol + shift)) (c - (icol + 1))).v =
          R.rnd (a.get r c).v := by
        unfold reflEntry
        simp only [Rnd.add_v, Rnd.mul_v, Rnd.sub_v]
        rw [hsum, hg _ _ (by omega), show icol + shift + (r - (icol + shift)) = r by omega,
          show icol + 1 + (c - (icol + 1)) = c by omega]
        simp [R.rnd_zero]
      rw [hent]
      have e1 := NearAbs.rnd (R := R) (R.rnd (a.get r c).v * (NdFloat.signum ν).v)
      exact (e1.congr rfl (by rw [abs_mul, hsg, mul_one])).trans (NearAbs.rnd _)
    · rw [if_neg hin, hg _ _ hcc]
      exact NearAbs.refl _ _

theorem clearRow_diag_rnd (a : Arr2 (Rnd R)) (irow shift : Nat) (hr : irow < a.nr) (hc : irow + shift < a.nc)
    (hz : ∀ c, irow + shift ≤ c → c < a.nc → (a.get irow c).v = 0) :
    ∃ b d, clearRow a irow shift = .ok (b, d) ∧ b.nr = a.nr ∧ b.nc = a.nc ∧ d.v = 0 ∧
      (∀ r c, irow < r → b.get r c = a.get r c) := by
  obtain ⟨b, d, h1, h2, h3, h4, -, h5⟩ := clearColumn_diag_rnd a.t irow shift hr hc (fun c h => hz c h.le)
    (Or.inl (hz _ le_rfl hc))
  refine ⟨b.t, d, ?_, h3, h2, h4.zero (hz _ le_rfl hc), fun r c h => h5 (hz _ le_rfl hc) c r h⟩
  unfold clearRow
  rw [h1]; rfl

/-- The bidiagonalization of a diagonal matrix: the diagonal in absolute value, and nothing beside it. -/
theorem bidiagTall_diag_rnd {m n : Nat} (a : Arr2 (Rnd R)) (ha : HasShape a m n) (h0 : 1 ≤ n) (h : n ≤ m)
    (hd : ∀ i j, i < m → j < n → i ≠ j → (a.get i j).v = 0) :
    ∃ s, bidiagTall a = .ok s ∧ s.2.1.len = n ∧ s.2.2.len = n - 1 ∧
      (∀ i, i < n → NearAbs R (m + n + 2) (s.2.1.get i).v (a.get i i).v) ∧
      ∀ i, i < n - 1 → (s.2.2.get i).v = 0 := by
  obtain ⟨rfl, rfl⟩ := ha
  unfold bidiagTall
  have hw : Succeeds (forRange 0 (a.nc - 1)
      (a, (Arr1.zeros a.nc : Arr1 (Rnd R)), (Arr1.zeros (a.nc - 1) : Arr1 (Rnd R))) bidiagStep)
      (fun s => BidiagShape a.nr a.nc s ∧
        (∀ r c, a.nc - 1 ≤ r → r < a.nr → a.nc - 1 ≤ c → c < a.nc →
          NearAbs R (2 * (a.nc - 1)) (s.1.get r c).v (a.get r c).v) ∧
        (∀ k, k < a.nc - 1 → NearAbs R (a.nr + a.nc + 2) (s.2.1.get k).v (a.get k k).v) ∧
        ∀ k, k < a.nc - 1 → (s.2.2.get k).v = 0) := by
    refine wp_forRange (fun i (s : Arr2 (Rnd R) × Arr1 (Rnd R) × Arr1 (Rnd R)) => BidiagShape a.nr a.nc s ∧
        (∀ r c, i ≤ r → r < a.nr → i ≤ c → c < a.nc → NearAbs R (2 * i) (s.1.get r c).v (a.get r c).v) ∧
        (∀ k, k < i → NearAbs R (a.nr + a.nc + 2) (s.2.1.get k).v (a.get k k).v) ∧
        ∀ k, k < i → (s.2.2.get k).v = 0) (Nat.zero_le _)
      ⟨⟨rfl, rfl, rfl, rfl⟩, fun _ _ _ _ _ _ => NearAbs.refl _ _, fun _ h => by omega, fun _ h => by omega⟩ ?_
    rintro i ⟨b, d, o⟩ _ hi ⟨⟨h1, h2, h3, h4⟩, h5, h6, h7⟩
    simp only at h1 h2 h3 h4 h5 h6 h7
    have hz : ∀ r c, i ≤ r → r < a.nr → i ≤ c → c < a.nc → r ≠ c → (b.get r c).v = 0 := fun r c q1 q2 q3 q4 q5 =>
      (h5 r c q1 q2 q3 q4).zero (hd r c q2 q4 q5)
    unfold bidiagStep
    obtain ⟨b', x, e, g1, g2, g3, g4, -⟩ := clearColumn_diag_rnd b i 0 (by omega) (by omega)
      (fun r q1 q2 => hz r i (by omega) (by omega) le_rfl (by omega) (by omega))
      (Or.inr fun c q1 q2 => hz i c le_rfl (by omega) (by omega) (by omega) (by omega))
    simp only [e, ok_bind]
    rw [Arr1.idxSet_ok (by omega)]
    simp only [ok_bind]
    have hz' : ∀ c, i < c → c < a.nc → (b'.get i c).v = 0 := fun c q1 q2 =>
      (g4 i c q1).zero (hz i c le_rfl (by omega) q1.le q2 (by omega))
    obtain ⟨b'', y, e, f1, f2, f3, f4⟩ := clearRow_diag_rnd b' i 1 (by omega) (by omega)
      (fun c q1 q2 => hz' c (by omega) (by omega))
    simp only [e, ok_bind]
    rw [Arr1.idxSet_ok (by omega)]
    refine ⟨⟨by rw [← h1, ← g1, ← f1], by rw [← h2, ← g2, ← f2], h3, h4⟩, ?_, ?_, ?_⟩
    · intro r c q1 q2 q3 q4
      show NearAbs R _ (b''.get r c).v _
      rw [f4 r c (by omega)]
      exact ((g4 r c (by omega)).trans (h5 r c (by omega) q2 (by omega) q4)).mono (by omega)
    · intro k hk
      simp only [Arr1.upd_get]
      split
      · rename_i hki
        subst hki
        rw [add_zero] at g3
        exact (g3.trans (h5 k k le_rfl (by omega) le_rfl (by omega))).mono (by omega)
      · exact h6 k (by omega)
    · intro k hk
      simp only [Arr1.upd_get]
      split
      · exact f3
      · exact h7 k (by omega)
  obtain ⟨⟨b, d, o⟩, e, ⟨h1, h2, h3, h4⟩, h5, h6, h7⟩ := succeeds_iff.1 hw
  rw [e]
  simp only [ok_bind] at *
  have hz : ∀ r, a.nc - 1 < r → r < a.nr → (b.get r (a.nc - 1)).v = 0 := fun r q1 q2 =>
    (h5 r (a.nc - 1) q1.le q2 le_rfl (by omega)).zero (hd r _ q2 (by omega) (by omega))
  obtain ⟨b', x, e, g1, g2, g3, g4, -⟩ := clearColumn_diag_rnd b (a.nc - 1) 0 (by omega) (by omega)
    (fun r q1 q2 => hz r (by omega) (by omega)) (Or.inr fun c q1 q2 => by omega)
  simp only [e, ok_bind]
  rw [Arr1.idxSet_ok (by omega)]
  refine ⟨_, rfl, h3, h4, ?_, h7⟩
  intro k hk
  simp only [Arr1.upd_get]
  split
  · rename_i hki
    subst hki
    rw [add_zero] at g3
    exact (g3.trans (h5 _ _ le_rfl (by omega) le_rfl (by omega))).mono (by omega)
  · exact h6 k (by omega)

theorem bidiagonal_diag_rnd {m n : Nat} (a : Arr2 (Rnd R)) (ha : HasShape a m n) (hm : m ≠ 0) (hn : n ≠ 0)
    (hd : ∀ i j, i < m → j < n → i ≠ j → (a.get i j).v = 0) :
    ∃ b, bidiagonal a = .ok b ∧ b.diagonal.len = min m n ∧ b.offDiagonal.len = min m n - 1 ∧
      (∀ i, i < min m n → NearAbs R (m + n + 2) (b.diagonal.get i).v (a.get i i).v) ∧
      ∀ i, i < min m n - 1 → (b.offDiagonal.get i).v = 0 := by
  obtain ⟨rfl, rfl⟩ := ha
  rcases le_or_gt a.nc a.nr with h | h
  · obtain ⟨s, e, h1, h2, h3, h4⟩ := bidiagTall_diag_rnd a ⟨rfl, rfl⟩ (by omega) h hd
    obtain ⟨b, hb, rfl⟩ := relM_ok_left (bidiagonal_tall a (by omega) h) e
    rw [min_eq_right h]
    exact ⟨_, hb, h1, h2, h3, h4⟩
  · obtain ⟨s, e, h1, h2, h3, h4⟩ := bidiagTall_diag_rnd a.t ⟨rfl, rfl⟩ (by show 1 ≤ a.nr; omega) h.le
      (fun i j hi hj hij => hd j i hj hi (Ne.symm hij))
    obtain ⟨b, hb, rfl⟩ := relM_ok_left (bidiagonal_wide a (by omega) h) e
    rw [min_eq_left h.le]
    exact ⟨_, hb, h1, h2, fun i hi => (h3 i hi).mono (by show a.nc + a.nr + 2 ≤ _; omega), h4⟩

theorem svdDelimitEnd_zero_rnd (up : Bool) (eps : Rnd R) : ∀ (n : Nat) (s : SvdData (Rnd R)), n ≤ s.off.len →
    n < s.diag.len → (∀ i, i < n → (s.off.get i).v = 0) →
    ∃ off, svdDelimitEnd up eps n s = .ok ({ s with off := off }, 0) := by
  intro n
  induction n with
  | zero => intro s _ _ _; exact ⟨s.off, rfl⟩
  | succ m ih =>
    intro s h1 h2 h3
    unfold svdDelimitEnd
    rw [Arr1.at_ok (by omega), Arr1.at_ok h2, Arr1.at_ok (by omega)]
    simp only [ok_bind]
    rw [if_pos (by simp [h3 m (by omega)]), Arr1.atm_ok (by omega)]
    simp only [ok_bind]
    obtain ⟨off, h⟩ := ih { s with off := s.off.upd m 0 } (by simp only [Arr1.upd_len]; omega) (by simp only; omega)
      (fun i hi => by simp only [Arr1.upd_get]; split <;> [rfl; exact h3 i (by omega)])
    exact ⟨off, h⟩

theorem fixSigns_nonneg_rnd (dim : Nat) (diag : Arr1 (Rnd R)) (u : Option (Arr2 (Rnd R))) (h : dim ≤ diag.len)
    (hn : ∀ i, i < dim → 0 ≤ (diag.get i).v) : fixSigns dim diag u = .ok (diag, u) := by
  unfold fixSigns
  have hw : Succeeds (forRange 0 dim (diag, u) fun i (p : Arr1 (Rnd R) × Option (Arr2 (Rnd R))) => do
      let val ← p.1.idx i
      if NdFloat.isSignNeg val then do
        let diag ← p.1.idxSet i (-val)
        let u ← scaleCol i (-(0 : Rnd R)) p.2
        .ok (diag, u)
      else .ok p) (fun p => p = (diag, u)) := by
    refine wp_forRange (fun _ p => p = (diag, u)) (Nat.zero_le _) rfl ?_
    rintro i _ _ hi rfl
    simp only
    rw [Arr1.idx_ok (by omega)]
    simp only [ok_bind]
    rw [if_neg (by
      show ¬ decide ((diag.get i).v < 0) = true
      simpa using hn i hi)]
    rfl
  obtain ⟨p, hp, rfl⟩ := succeeds_iff.1 hw
  exact hp

/-- The scaled matrix, times the scale. -/
theorem scaleDown_entry_rnd {m n : Nat} (a : Arr2 (Rnd R)) (ha : HasShape a m n) (hm : m ≠ 0) (hn : n ≠ 0) :
    HasShape (a.scaleDown a.amax) m n ∧ 0 ≤ a.amax.v ∧ ∀ i j, i < m → j < n →
      ∃ t, Near R.u 1 t ∧ ((a.scaleDown a.amax).get i j).v * a.amax.v = (a.get i j).v * t ∧
        ((a.get i j).v = 0 → ((a.scaleDown a.amax).get i j).v = 0) := by
  have hv : HasShape (Rnd.vals a) m n := ha
  have h0 := amax_nonneg (Rnd.vals a) (by rw [hv.1]; omega) (by rw [hv.2]; omega)
  rw [← amax_rnd] at h0
  unfold Arr2.scaleDown
  by_cases hz : a.amax.v = 0
  · rw [if_pos (by simpa using hz)]
    refine ⟨ha, h0, fun i j hi hj => ⟨1, near_one R.u_nonneg R.u_lt_one _, ?_, fun h => h⟩⟩
    obtain ⟨-, s2, -, -⟩ := scaleDown_real (Rnd.vals a) hv (by omega) (by omega)
    rw [← amax_rnd, hz, zero_smul] at s2
    have := congrFun (congrFun s2 ⟨i, hi⟩) ⟨j, hj⟩
    rw [toMat_apply] at this
    have e : (a.get i j).v = 0 := this
    rw [e]; ring
  · rw [if_neg (by simpa using hz)]
    refine ⟨ha, h0, fun i j hi hj => ?_⟩
    obtain ⟨t, ht, e⟩ := R.rnd_near ((a.get i j).v / a.amax.v)
    refine ⟨t, ht, ?_, fun h => ?_⟩
    · show R.rnd ((a.get i j).v / a.amax.v) * a.amax.v = _
      rw [e]; field_simp
    · show R.rnd ((a.get i j).v / a.amax.v) = 0
      rw [h, zero_div, R.rnd_zero]

theorem svdGo_diag_rnd {m n : Nat} (fuel : Nat) (a : Arr2 (Rnd R)) (cu cv : Bool) (eps : Rnd R) (ha : HasShape a m n)
    (hm : m ≠ 0) (hn : n ≠ 0) (hd : ∀ i j, i < m → j < n → i ≠ j → (a.get i j).v = 0) :
    ∃ u s vt, svdGo fuel a cu cv eps = .ok (u, s, vt) ∧ s.len = min m n ∧
      (∀ i, i < min m n → 0 ≤ (s.get i).v ∧ NearAbs R (m + n + 4) (s.get i).v (a.get i i).v) := by
  obtain ⟨s1, hamax, sent⟩ := scaleDown_entry_rnd a ha hm hn
  obtain ⟨b', e', t1, t2, t3, t4⟩ := bidiagonal_diag_rnd (a.scaleDown a.amax) s1 hm hn fun i j hi hj hij => by
    obtain ⟨-, -, -, h⟩ := sent i j hi hj
    exact h (hd i j hi hj hij)
  obtain ⟨b, U, Vt, e1, e2, e3, -, -, hgo⟩ := svdGo_eq a (by rw [ha.1]; exact hm) (by rw [ha.2]; exact hn)
  rw [e'] at e1; cases e1
  rw [ha.1, ha.2] at hgo
  obtain ⟨off, hdel⟩ := svdDelimitEnd_zero_rnd (decide (n ≤ m)) eps (min m n - 1) ⟨b'.intoDiagonals.1,
      b'.intoDiagonals.2, if cu then some U else none, if cv then some Vt else none⟩
    (by show _ ≤ b'.offDiagonal.len; omega)
    (by show _ < b'.diagonal.len; omega) (fun i hi => by
      show |(b'.offDiagonal.get i).v| = 0
      rw [t4 i hi, abs_zero])
  have hloop : ∀ s, svdLoop (decide (n ≤ m)) cu cv eps fuel ⟨s, 0, 0⟩ = .ok ⟨s, 0, 0⟩ := fun s => by
    cases fuel <;> simp [svdLoop]
  have hget : ∀ i, i < min m n → ((b'.intoDiagonals.1.map fun x => x * a.amax).get i).v =
      R.rnd (|(b'.diagonal.get i).v| * a.amax.v) := fun i hi => rfl
  have hnn : ∀ i, i < min m n → 0 ≤ ((b'.intoDiagonals.1.map fun x => x * a.amax).get i).v := fun i hi => by
    rw [hget i hi]; exact rnd_nonneg (mul_nonneg (abs_nonneg _) hamax)
  refine ⟨if cu then some U else none, b'.intoDiagonals.1.map (fun x => x * a.amax), if cv then some Vt else none, ?_, t1,
    fun i hi => ⟨hnn i hi, ?_⟩⟩
  · rw [hgo]
    unfold svdDelimit
    rw [hdel]
    simp only [ok_bind, if_true]
    rw [hloop]
    simp only [ok_bind]
    rw [fixSigns_nonneg_rnd _ _ _ (by show _ ≤ b'.diagonal.len; omega) hnn]
    rfl
  · rw [hget i hi]
    obtain ⟨t, ht, et, -⟩ := sent i i (by omega) (by omega)
    obtain ⟨s, hs, es⟩ := t3 i hi
    have e1 : NearAbs R (m + n + 2) (|(b'.diagonal.get i).v| * a.amax.v)
        (((a.scaleDown a.amax).get i i).v * a.amax.v) :=
      ⟨s, hs, by rw [abs_mul, abs_mul, abs_abs, es]; ring⟩
    have e2 : NearAbs R 1 (((a.scaleDown a.amax).get i i).v * a.amax.v) (a.get i i).v :=
      ⟨t, ht, by rw [et, abs_mul, abs_of_pos (ht.pos R.u_nonneg R.u_lt_one)]⟩
    exact (((NearAbs.rnd _).trans e1).trans e2).mono (by omega)

/-- One step of the tridiagonalization on a matrix whose column is already zero below the diagonal. -/
theorem tridiagStep_diag_rnd (i : Nat) (a : Arr2 (Rnd R)) (off p : Arr1 (Rnd R)) (hc : i < a.nc) (hr : i + 1 < a.nr)
    (ho : i < off.len) (hs : i + 1 ≤ a.nc) (hz : ∀ r, i < r → r < a.nr → (a.get r i).v = 0) :
    ∃ a', tridiagStep i a off p = .ok (a', off.upd i 0, p) ∧ a'.nr = a.nr ∧ a'.nc = a.nc ∧
      ∀ r c, r < a.nr → (a'.get r c).v = (a.get r c).v := by
  unfold tridiagStep
  rw [Arr2.colSlice_ok hr.le le_rfl hc]
  simp only [ok_bind]
  rw [Arr2.slice_ok hr.le le_rfl hs le_rfl]
  simp only [ok_bind]
  obtain ⟨w, o, hw, hl, hwz, -, hnone⟩ := reflectionAxisMut_first_rnd
    (⟨a.nr - (i + 1), fun k => a.get (i + 1 + k) i⟩ : Arr1 (Rnd R)) (by simp; omega) (fun k hk hk' => by
      simp only at hk' ⊢; exact hz _ (by omega) (by omega))
  simp only at hl hwz hnone
  obtain ⟨rfl, hw0⟩ := hnone (hz _ (by omega) (by omega))
  simp only [hw, ok_bind]
  rw [Arr1.idxSet_ok ho]
  simp only [ok_bind, Option.isSome_none, Option.getD_none]
  refine ⟨_, rfl, rfl, rfl, fun r c hrr => ?_⟩
  simp only [Arr2.putCol]
  split
  · rename_i h
    obtain ⟨h1, h2, h3⟩ : i + 1 ≤ r ∧ r < i + 1 + w.len ∧ c = i := by omega
    subst h3
    rw [hz r (by omega) hrr]
    rcases Nat.eq_zero_or_pos (r - (c + 1)) with h0 | h0
    · rw [h0, hw0]
    · rw [hwz _ h0 (by omega)]
  · rfl

theorem symTridiagonal_diag_rnd {n : Nat} (a : Arr2 (Rnd R)) (ha : HasShape a n n) (hn : 1 ≤ n)
    (hd : ∀ i j, i < n → j < n → i ≠ j → (a.get i j).v = 0) :
    ∃ t, symTridiagonal a = .ok t ∧ HasShape t.diagMatrix n n ∧ t.offDiagonal.len = n - 1 ∧
      (∀ r c, r < n → (t.diagMatrix.get r c).v = (a.get r c).v) ∧ ∀ i, i < n - 1 → (t.offDiagonal.get i).v = 0 := by
  obtain ⟨h1, h2⟩ := ha
  unfold symTridiagonal
  rw [checkSquare_ok (h1.trans h2.symm)]
  simp only [ok_bind]
  rw [if_neg (by omega)]
  have hw : Succeeds (forRange 0 (a.nr - 1)
      (a, (Arr1.zeros (a.nr - 1) : Arr1 (Rnd R)), (Arr1.zeros (a.nr - 1) : Arr1 (Rnd R)))
      fun i (s : Arr2 (Rnd R) × Arr1 (Rnd R) × Arr1 (Rnd R)) => tridiagStep i s.1 s.2.1 s.2.2)
      (fun s => HasShape s.1 n n ∧ s.2.1.len = n - 1 ∧ (∀ r c, r < n → (s.1.get r c).v = (a.get r c).v) ∧
        ∀ i, i < a.nr - 1 → (s.2.1.get i).v = 0) := by
    refine wp_forRange (fun i (s : Arr2 (Rnd R) × Arr1 (Rnd R) × Arr1 (Rnd R)) => HasShape s.1 n n ∧ s.2.1.len = n - 1 ∧
        (∀ r c, r < n → (s.1.get r c).v = (a.get r c).v) ∧ ∀ k, k < i → (s.2.1.get k).v = 0) (Nat.zero_le _)
      ⟨⟨h1, h2⟩, by simp [Arr1.zeros, h1], fun _ _ _ => rfl, fun _ h => by omega⟩ ?_
    rintro i ⟨b, o, p⟩ _ hi ⟨⟨q1, q2⟩, q3, q4, q5⟩
    simp only at q1 q2 q3 q4 q5 ⊢
    obtain ⟨b', e, f1, f2, f3⟩ := tridiagStep_diag_rnd i b o p (by omega) (by omega) (by omega) (by omega)
      (fun r hr hr' => by rw [q4 r i (by omega)]; exact hd r i (by omega) (by omega) (by omega))
    rw [e]
    refine ⟨⟨f1.trans q1, f2.trans q2⟩, q3, fun r c hr => by rw [← q4 r c hr]; exact f3 r c (by omega), fun k hk => ?_⟩
    simp only [Arr1.upd_get]
    split
    · rfl
    · exact q5 k (by omega)
  obtain ⟨⟨b, o, p⟩, e, q1, q2, q3, q4⟩ := succeeds_iff.1 hw
  have e' : forRange 0 (a.nr - 1)
      (a, (Arr1.zeros (a.nr - 1) : Arr1 (Rnd R)), (Arr1.zeros (a.nr - 1) : Arr1 (Rnd R)))
      (fun i (a, off, p) => tridiagStep i a off p) = .ok (b, o, p) := e
  rw [e']
  exact ⟨_, rfl, q1, q2, q3, fun i hi => q4 i (by omega)⟩

theorem delimitEnd_zero_rnd (diag off : Arr1 (Rnd R)) (eps : Rnd R) (he : 0 ≤ eps.v) : ∀ n, n < diag.len → n ≤ off.len →
    (∀ i, i < n → (off.get i).v = 0) → delimitEnd diag off eps n = .ok 0 := by
  intro n
  induction n with
  | zero => intro _ _ _; rfl
  | succ m ih =>
    intro h1 h2 h3
    unfold delimitEnd
    rw [Arr1.at_ok (by omega), Arr1.at_ok h1, Arr1.at_ok (by omega)]
    simp only [ok_bind]
    rw [if_neg (by
      simp only [Rnd.lt_v, Rnd.mul_v, Rnd.add_v, Rnd.abs_v, h3 m (by omega), abs_zero, decide_eq_true_eq, not_lt]
      exact rnd_nonneg (mul_nonneg he (rnd_nonneg (by positivity))))]
    exact ih (by omega) (by omega) fun i hi => h3 i (by omega)

theorem symmetricEig_diag_rnd {n : Nat} (fuel : Nat) (a : Arr2 (Rnd R)) (ev : Bool) (eps : Rnd R) (he : 0 ≤ eps.v)
    (ha : HasShape a n n) (hn : 1 ≤ n) (hd : ∀ i j, i < n → j < n → i ≠ j → (a.get i j).v = 0) :
    ∃ v q, symmetricEig fuel a ev eps = .ok (v, q) ∧ v.len = n ∧ q.isSome = ev ∧
      (∀ i, i < n → ∃ t, Near R.u 2 t ∧ (v.get i).v = (a.get i i).v * t) := by
  obtain ⟨s1, hamax, sent⟩ := scaleDown_entry_rnd a ha (by omega) (by omega)
  obtain ⟨t', e', t1, t2, t3, t4⟩ := symTridiagonal_diag_rnd (a.scaleDown a.amax) s1 hn fun i j hi hj hij => by
    obtain ⟨-, -, -, h⟩ := sent i j hi hj
    exact h (hd i j hi hj hij)
  obtain ⟨t, e, -, q, -, hq, hgen, hone, hmany⟩ := symmetricEig_cases fuel a ev eps (ha.1.trans ha.2.symm)
    (by rw [ha.1]; exact hn)
  rw [e'] at e; cases e
  have hlen : t'.intoDiagonals.1.len = n := by
    simp [TridiagonalDecomp.intoDiagonals, Arr2.diag, t1.1, t1.2]
  have hv : ∀ i, i < n → ∃ s, Near R.u 2 s ∧ ((t'.intoDiagonals.1.map fun x => x * a.amax).get i).v = (a.get i i).v * s :=
    fun i hi => by
    obtain ⟨t, ht, et, -⟩ := sent i i hi hi
    have h1 : (t'.intoDiagonals.1.get i).v = ((a.scaleDown a.amax).get i i).v := t3 i i hi
    obtain ⟨r, hr, er⟩ := R.rnd_near ((t'.intoDiagonals.1.get i).v * a.amax.v)
    refine ⟨t * r, ht.mul R.u_nonneg R.u_lt_one hr, ?_⟩
    show R.rnd ((t'.intoDiagonals.1.get i).v * a.amax.v) = _
    rw [er, h1, et]; ring
  rw [ha.1] at hone hmany
  by_cases h1 : n = 1
  · exact ⟨_, _, hone h1, hlen, hq, hv⟩
  · obtain ⟨off, s, e, d1, -, -, d2⟩ := hmany h1
    have hdel : delimitSubproblem t'.intoDiagonals.1 t'.intoDiagonals.2 (n - 1) eps = .ok (t'.intoDiagonals.2, 0, 0) := by
      unfold delimitSubproblem
      rw [delimitEnd_zero_rnd _ _ eps he _ (by omega) (by show n - 1 ≤ t'.offDiagonal.len; omega) (fun i hi => by
        show |(t'.offDiagonal.get i).v| = 0
        rw [t4 i hi, abs_zero])]
      rfl
    rw [hdel] at d1
    cases d1
    rw [d2]
    have : ∀ fuel, eigLoop eps fuel ⟨t'.intoDiagonals.1, t'.intoDiagonals.2, q, 0, 0⟩ =
        .ok ⟨t'.intoDiagonals.1, t'.intoDiagonals.2, q, 0, 0⟩ := fun fuel => by cases fuel <;> simp [eigLoop]
    rw [this]
    exact ⟨_, _, rfl, hlen, hq, hv⟩

/-- Cholesky of a matrix whose strict lower triangle is zero: the part left of the diagonal stays zero. -/
theorem offRow_diag_rnd {A b : Arr2 (Rnd R)} {r : Nat} (h : OffRow A b r) (hz : ∀ c, c < r → (A.get r c).v = 0) :
    ∀ c, c < r → (b.get r c).v = 0 := by
  intro c
  induction c using Nat.strong_induction_on with
  | _ c ih =>
    intro hc
    obtain ⟨q, -, e⟩ := sumTo_products c (fun i => b.get c i) (fun i => b.get r i)
    have hs : (sumTo c fun i => b.get c i * b.get r i).v = 0 := by
      rw [e]
      refine Finset.sum_eq_zero fun k hk => ?_
      rw [ih k (Finset.mem_range.1 hk) (by have := Finset.mem_range.1 hk; omega), mul_zero, zero_mul]
    rw [h c hc, Rnd.div_v, Rnd.sub_v, hs, hz c hc, sub_zero, R.rnd_zero, zero_div, R.rnd_zero]

theorem pivot_diag_rnd {A b : Arr2 (Rnd R)} {r : Nat} (h : OffRow A b r) (hz : ∀ c, c < r → (A.get r c).v = 0) :
    (pivot A b r).v = R.rnd (A.get r r).v := by
  obtain ⟨q, -, e⟩ := sumTo_products r (fun i => b.get r i) (fun i => b.get r i)
  have hs : (sumTo r fun i => b.get r i * b.get r i).v = 0 := by
    rw [e]
    refine Finset.sum_eq_zero fun k hk => ?_
    rw [offRow_diag_rnd h hz k (Finset.mem_range.1 hk), mul_zero, zero_mul]
  unfold pivot
  rw [Rnd.sub_v, hs, sub_zero]

theorem rnd_pos_iff {x : ℝ} : 0 < R.rnd x ↔ 0 < x := by
  obtain ⟨t, ht, e⟩ := R.rnd_near x
  rw [e]
  exact mul_pos_iff_of_pos_right (ht.pos R.u_nonneg R.u_lt_one)

theorem cholesky_diag_rnd {n : Nat} (a : Arr2 (Rnd R)) (ha : HasShape a n n)
    (hd : ∀ i j, i < n → j < i → (a.get i j).v = 0) :
    ((∃ l, cholesky a = .ok l) ↔ ∀ i < n, 0 < (a.get i i).v) ∧
    ∀ l, cholesky a = .ok l → HasShape l n n ∧ (∀ i j, i < n → j < n → i ≠ j → (l.get i j).v = 0) ∧
      ∀ i < n, ∃ t, Near R.u 2 t ∧ (l.get i i).v = √(a.get i i).v * t := by
  have h0 := R.u_nonneg
  have h1 := R.u_lt_one
  obtain ⟨rfl, hc⟩ := ha
  rcases cholesky_cases a hc.symm with ⟨b, e, hb, -, -⟩ | ⟨e, -, b, j, hj, hf, -, -⟩
  · have hp : ∀ i < a.nr, 0 < (a.get i i).v := fun i hi => by
      have := hb.piv i hi
      rw [Rnd.le_v, decide_eq_false_iff_not, not_le, pivot_diag_rnd (hb.off i hi) (fun c hc => hd i c hi hc)] at this
      exact rnd_pos_iff.1 this
    refine ⟨⟨fun _ => hp, fun _ => ⟨_, e⟩⟩, fun l hl => ?_⟩
    rw [e] at hl; cases hl
    refine ⟨⟨hb.nr, hb.nc.trans hc⟩, fun i j hi hj hij => ?_, fun i hi => ?_⟩
    · simp only [cleanLower, hb.nr]
      split
      · rfl
      · exact offRow_diag_rnd (hb.off i hi) (fun c hc => hd i c hi hc) j (by omega)
    · simp only [cleanLower, lt_irrefl, false_and, and_false, if_false]
      rw [hb.diag i hi, Rnd.sqrt_v, pivot_diag_rnd (hb.off i hi) (fun c hc => hd i c hi hc)]
      obtain ⟨t, ht, et⟩ := R.rnd_near (a.get i i).v
      obtain ⟨s, hs, es⟩ := R.rnd_near (√(R.rnd (a.get i i).v))
      refine ⟨√t * s, (ht.sqrt h0 h1).mul h0 h1 hs, ?_⟩
      rw [es, et, Real.sqrt_mul (hp i hi).le]
      ring
  · refine ⟨⟨fun ⟨l, hl⟩ => (by rw [e] at hl; cases hl), fun hp => ?_⟩, fun l hl => by rw [e] at hl; cases hl⟩
    have := hf.bad
    rw [Rnd.le_v, decide_eq_true_eq, pivot_diag_rnd (hf.off j le_rfl) (fun c hc => hd j c hj hc)] at this
    exact absurd (rnd_pos_iff.2 (hp j hj)) (not_lt.2 this)

end LinfaLinalg
