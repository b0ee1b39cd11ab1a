import Verif.Model.Bidiagonal
import Verif.Proofs.Tridiagonal

/-! # Bidiagonal decomposition -/

set_option linter.unusedSectionVars false
set_option linter.unusedSimpArgs false

namespace LinfaLinalg

open Matrix

section generic
variable {α : Type} [Zero α] [One α] [Add α] [Sub α] [Mul α] [Div α] [Neg α] [NdFloat α]

/-- One iteration of the loop in `bidiagonal` for matrices with at least as many rows as columns. -/
def bidiagStep (i : Nat) (s : Arr2 α × Arr1 α × Arr1 α) : M (Arr2 α × Arr1 α × Arr1 α) := do
  let (a, d) ← clearColumn s.1 i 0
  let diag ← s.2.1.idxSet i d
  let (a, e) ← clearRow a i 1
  let off ← s.2.2.idxSet i e
  .ok (a, diag, off)

/-- `bidiagonal` for matrices with at least as many rows as columns. -/
def bidiagTall (a : Arr2 α) : M (Arr2 α × Arr1 α × Arr1 α) := do
  let s ← forRange 0 (a.nc - 1) (a, (Arr1.zeros a.nc : Arr1 α), (Arr1.zeros (a.nc - 1) : Arr1 α))
    bidiagStep
  let (a', d) ← clearColumn s.1 (a.nc - 1) 0
  let diag ← s.2.1.idxSet (a.nc - 1) d
  .ok (a', diag, s.2.2)

theorem bidiagonal_empty (a : Arr2 α) (h : min a.nr a.nc = 0) :
    bidiagonal a = .error (.err .emptyMatrix) := by
  unfold bidiagonal
  simp only
  rw [if_pos h]; rfl

theorem relM_ok_left {β γ : Type} {R : β → γ → Prop} {m : M β} {m' : M γ} (h : RelM R m m')
    {c : γ} (hc : m' = .ok c) : ∃ b, m = .ok b ∧ R b c := by
  subst hc
  cases m with
  | error e => exact absurd h (by simp [RelM])
  | ok b => exact ⟨b, rfl, h⟩

theorem bidiagonal_tall (a : Arr2 α) (h0 : min a.nr a.nc ≠ 0) (h : a.nc ≤ a.nr) :
    RelM (fun b (s : Arr2 α × Arr1 α × Arr1 α) => b = ⟨s.1, s.2.2, s.2.1, true⟩)
      (bidiagonal a) (bidiagTall a) := by
  unfold bidiagonal bidiagTall
  simp only
  rw [if_neg h0, if_pos h, min_eq_right h]
  refine relM_bind (R := fun x y => x = y) (relM_forRange rfl ?_) ?_
  · rintro i - - ⟨b, d, o⟩ _ rfl
    exact relM_refl (fun _ => rfl) _
  · rintro ⟨b, d, o⟩ _ rfl
    refine relM_bind (R := fun x y => x = y) (relM_refl (fun _ => rfl) _) ?_
    rintro ⟨b', d'⟩ _ rfl
    refine relM_bind (R := fun x y => x = y) (relM_refl (fun _ => rfl) _) ?_
    rintro d'' _ rfl
    rfl

theorem clearRow_t (a : Arr2 α) (i s : Nat) :
    RelM (fun x (y : Arr2 α × α) => x = (y.1.t, y.2)) (clearRow a i s) (clearColumn a.t i s) := by
  unfold clearRow
  cases clearColumn a.t i s with
  | error e => rfl
  | ok y => rfl

theorem clearColumn_t (a : Arr2 α) (i s : Nat) :
    RelM (fun x (y : Arr2 α × α) => x = (y.1.t, y.2)) (clearColumn a i s) (clearRow a.t i s) := by
  unfold clearRow
  show RelM _ (clearColumn a i s) (clearColumn a i s >>= _)
  cases clearColumn a i s with
  | error e => rfl
  | ok y => rfl

theorem bidiagonal_wide (a : Arr2 α) (h0 : min a.nr a.nc ≠ 0) (h : a.nr < a.nc) :
    RelM (fun b (s : Arr2 α × Arr1 α × Arr1 α) => b = ⟨s.1.t, s.2.2, s.2.1, false⟩)
      (bidiagonal a) (bidiagTall a.t) := by
  unfold bidiagonal bidiagTall
  simp only
  rw [if_neg h0, if_neg (by omega), min_eq_left h.le]
  refine relM_bind (R := fun x (y : Arr2 α × Arr1 α × Arr1 α) => x = (y.1.t, y.2))
    (relM_forRange rfl ?_) ?_
  · rintro i - - _ ⟨b, d, o⟩ rfl
    unfold bidiagStep
    refine relM_bind (clearRow_t _ _ _) ?_
    rintro _ ⟨b', d'⟩ rfl
    refine relM_bind (R := fun x y => x = y) (relM_refl (fun _ => rfl) _) ?_
    rintro d'' _ rfl
    refine relM_bind (clearColumn_t _ _ _) ?_
    rintro _ ⟨b'', e⟩ rfl
    refine relM_bind (R := fun x y => x = y) (relM_refl (fun _ => rfl) _) ?_
    rintro e' _ rfl
    rfl
  · rintro _ ⟨b, d, o⟩ rfl
    refine relM_bind (clearRow_t _ _ _) ?_
    rintro _ ⟨b', d'⟩ rfl
    refine relM_bind (R := fun x y => x = y) (relM_refl (fun _ => rfl) _) ?_
    rintro d'' _ rfl
    rfl

/-- Shapes in a bidiagonal decomposition. -/
structure BidiagShape (r c : Nat) (s : Arr2 α × Arr1 α × Arr1 α) : Prop where
  nr : s.1.nr = r
  nc : s.1.nc = c
  dlen : s.2.1.len = c
  olen : s.2.2.len = c - 1

theorem bidiagTall_ok (a : Arr2 α) (h0 : 1 ≤ a.nc) (h : a.nc ≤ a.nr) :
    ∃ s, bidiagTall a = .ok s ∧ BidiagShape a.nr a.nc s := by
  unfold bidiagTall
  have hw : Succeeds (forRange 0 (a.nc - 1)
      (a, (Arr1.zeros a.nc : Arr1 α), (Arr1.zeros (a.nc - 1) : Arr1 α)) bidiagStep)
      (BidiagShape a.nr a.nc) := by
    refine wp_forRange (fun _ => BidiagShape a.nr a.nc) (Nat.zero_le _) ⟨rfl, rfl, rfl, rfl⟩ ?_
    rintro i ⟨b, d, o⟩ _ hi ⟨h1, h2, h3, h4⟩
    simp only at h1 h2 h3 h4
    unfold bidiagStep
    obtain ⟨b', x, e, h5, h6⟩ := clearColumn_ok b i 0 (by omega) (by omega)
    simp only [e, ok_bind]
    rw [Arr1.idxSet_ok (by omega)]
    simp only [ok_bind]
    obtain ⟨b'', y, e, h7, h8⟩ := clearRow_ok b' i 1 (by omega) (by omega)
    simp only [e, ok_bind]
    rw [Arr1.idxSet_ok (by omega)]
    exact ⟨by rw [h7, h5, h1], by rw [h8, h6, h2], h3, h4⟩
  obtain ⟨⟨b, d, o⟩, e, h1, h2, h3, h4⟩ := succeeds_iff.1 hw
  rw [e]
  simp only [ok_bind] at *
  obtain ⟨b', x, e, h5, h6⟩ := clearColumn_ok b (a.nc - 1) 0 (by omega) (by omega)
  simp only [e, ok_bind]
  rw [Arr1.idxSet_ok (by omega)]
  exact ⟨_, rfl, by rw [h5, h1], by rw [h6, h2], h3, h4⟩

theorem assignDiag_ok {a : Arr2 α} {d : Arr1 α} (h : min a.nr a.nc = d.len) :
    a.assignDiag d =
      .ok ⟨a.nr, a.nc, fun i j => if i = j ∧ i < d.len then d.get i else a.get i j⟩ := by
  simp [Arr2.assignDiag, h]

/-- Closed form of `into_b`. -/
theorem intoB_eq (b : BidiagonalDecomp α) (h0 : 1 ≤ b.diagonal.len)
    (h1 : b.offDiagonal.len = b.diagonal.len - 1) :
    ∃ r, b.intoB = .ok r ∧ r.nr = b.diagonal.len ∧ r.nc = b.diagonal.len ∧
      ∀ i j, i < b.diagonal.len → j < b.diagonal.len → r.get i j =
        if i = j then NdFloat.abs (b.diagonal.get i)
        else if b.upperDiag = true ∧ j = i + 1 then NdFloat.abs (b.offDiagonal.get i)
        else if b.upperDiag = false ∧ i = j + 1 then NdFloat.abs (b.offDiagonal.get j) else 0 := by
  unfold BidiagonalDecomp.intoB BidiagonalDecomp.intoDiagonals
  simp only
  cases hb : b.upperDiag with
  | true =>
    simp only [if_true]
    rw [Arr2.slice_ok (by simp [Arr2.fromDiag, Arr1.map]) (by simp [Arr2.fromDiag, Arr1.map])
      (by omega) (by simp [Arr2.fromDiag, Arr1.map])]
    simp only [ok_bind]
    rw [assignDiag_ok (by simp [Arr1.map, h1])]
    refine ⟨_, rfl, rfl, rfl, ?_⟩
    intro i j hi hj
    simp only [Arr2.put, Arr2.fromDiag, Arr1.map, h1, true_and, Bool.true_eq_false, false_and,
      if_false]
    by_cases hj0 : 1 ≤ j
    · rw [if_pos (by omega)]
      by_cases hij : j = i + 1
      · rw [if_pos (by omega), if_neg (by omega), if_pos hij]
        simp
      · rw [if_neg (by omega), if_neg hij]
        simp only [show 0 + (i - 0) = i by omega, show 1 + (j - 1) = j by omega]
    · rw [if_neg (by omega)]
      by_cases hij : i = j
      · rw [if_pos hij, if_pos hij]
      · rw [if_neg hij, if_neg hij, if_neg (by omega)]
  | false =>
    simp only [Bool.false_eq_true, if_false]
    rw [Arr2.slice_ok (by omega) (by simp [Arr2.fromDiag, Arr1.map])
      (by simp [Arr2.fromDiag, Arr1.map]) (by simp [Arr2.fromDiag, Arr1.map])]
    simp only [ok_bind]
    rw [assignDiag_ok (by simp [Arr1.map, h1])]
    refine ⟨_, rfl, rfl, rfl, ?_⟩
    intro i j hi hj
    simp only [Arr2.put, Arr2.fromDiag, Arr1.map, h1, false_and, true_and, if_false]
    by_cases hj0 : 1 ≤ i
    · rw [if_pos (by omega)]
      by_cases hij : i = j + 1
      · rw [if_pos (by omega), if_neg (by omega), if_pos hij]
        simp [hij]
      · rw [if_neg (by omega), if_neg hij]
        simp only [show 0 + (j - 0) = j by omega, show 1 + (i - 1) = i by omega]
    · rw [if_neg (by omega)]
      by_cases hij : i = j
      · rw [if_pos hij, if_pos hij]
      · rw [if_neg hij, if_neg hij, if_neg (by omega)]

/-- The methods which assemble the factors, in terms of the decomposition of the tall matrix. -/
theorem BidiagShape.assemble_ok {r c : Nat} {s : Arr2 α × Arr1 α × Arr1 α}
    (h : BidiagShape r c s) (h0 : 1 ≤ c) (hc : c ≤ r) :
    (∃ q, assembleQ s.1 0 (fun i => s.2.1.idx i) = .ok q ∧ q.nr = r ∧ q.nc = c) ∧
    (∃ q, assembleQ s.1.t 1 (fun i => s.2.2.idx i) = .ok q ∧ q.nr = c ∧ q.nc = c) := by
  have m1 : min s.1.nr s.1.nc = c := by rw [h.nr, h.nc, min_eq_right hc]
  have m2 : min s.1.t.nr s.1.t.nc = c := by rw [min_comm]; exact m1
  constructor
  · obtain ⟨q, e, h1, h2⟩ := assembleQ_ok s.1 0 (fun i => s.2.1.idx i) (Nat.zero_le _)
      (fun i hi => ⟨_, Arr1.idx_ok (by rw [h.dlen]; omega)⟩)
    exact ⟨q, e, h1.trans h.nr, h2.trans m1⟩
  · obtain ⟨q, e, h1, h2⟩ := assembleQ_ok s.1.t 1 (fun i => s.2.2.idx i) (by omega)
      (fun i hi => ⟨_, Arr1.idx_ok (by rw [h.olen]; omega)⟩)
    exact ⟨q, e, h1.trans h.nc, h2.trans m2⟩

end generic

/-! ## Over the reals -/

/-- The partially bidiagonalized matrix: the first `i` rows and `j` columns are done. -/
noncomputable def bidPartial (i j : Nat) (a : Arr2 ℝ) (d e : Nat → ℝ) (r c : Nat) : ℝ :=
  if i ≤ r ∧ j ≤ c then a.get r c
  else if r = c then |d r|
  else if c = r + 1 then |e r|
  else 0

/-- `bidPartial` as an `m × n` matrix. -/
noncomputable def bidMat (m n i j : Nat) (a : Arr2 ℝ) (d e : Nat → ℝ) : Matrix (Fin m) (Fin n) ℝ :=
  Matrix.of fun r c => bidPartial i j a d e r c

/-- Clearing column `i`. -/
theorem bid_col_step {m n i : Nat} {a b : Arr2 ℝ} {d e : Nat → ℝ} {x : ℝ} (ha : HasShape a m n)
    (hi : i < n) (h : ClearSpec a b i i x) :
    bidMat m n i (i + 1) b (fun k => if k = i then x else d k) e =
      house m i (NdFloat.signum x) (fun r => if i ≤ r then b.get r i else 0) *
        bidMat m n i i a d e := by
  obtain ⟨h1, h2⟩ := ha
  have ok := h.ok
  rw [h1] at ok
  ext r c
  rw [house_mul_hApp _ (fun k => bidPartial i i a d e k c) r c (fun _ => rfl)]
  simp only [bidMat, Matrix.of_apply]
  by_cases hri : (r : Nat) < i
  · rw [hApp, if_pos hri]
    simp only [bidPartial]
    split_ifs <;> first | rfl | omega
  · by_cases hci : (c : Nat) < i
    · rw [hApp_zero ok.supp _ r.2]
      · simp only [bidPartial]
        split_ifs <;> first | rfl | omega
      · intro k hk _
        simp only [bidPartial]
        split_ifs <;> first | rfl | omega
    · have e1 : hApp m i (NdFloat.signum x) (fun r => if i ≤ r then b.get r i else 0)
          (fun k => bidPartial i i a d e k c) r =
          hApp m i (NdFloat.signum x) (fun r => if i ≤ r then b.get r i else 0)
          (fun k => a.get k c) r := by
        unfold hApp
        rw [if_neg hri, if_neg hri]
        have q : ∀ k, i ≤ k → bidPartial i i a d e k c = a.get k c := by
          intro k hk; rw [bidPartial, if_pos (by omega)]
        simp only
        rw [q r (by omega)]
        congr 3
        apply Finset.sum_congr rfl
        intro k _
        by_cases hk : i ≤ k
        · rw [q k hk]
        · rw [if_neg hk, zero_mul, zero_mul]
      rw [e1]
      by_cases hce : (c : Nat) = i
      · have := h.col r (by rw [h1]; exact r.2)
        rw [h1] at this
        rw [hce, this, if_neg hri]
        simp only [bidPartial]
        rw [if_neg (by omega)]
        by_cases hre : (r : Nat) = i
        · rw [if_pos hre, if_pos hre, if_pos hre]
        · rw [if_neg hre, if_neg hre, if_neg (by omega)]
      · have := h.right r c (by rw [h1]; exact r.2) (by omega) (by rw [h2]; exact c.2)
        rw [h1] at this
        rw [← this]
        simp only [bidPartial]
        rw [if_pos (by omega)]

/-- Clearing row `i`. -/
theorem bid_row_step {m n i : Nat} {a b : Arr2 ℝ} {d e : Nat → ℝ} {x : ℝ} (ha : HasShape a m n)
    (hi : i < m) (h : ClearSpec a.t b i (i + 1) x) :
    (bidMat m n (i + 1) (i + 1) b.t d (fun k => if k = i then x else e k))ᵀ =
      house n (i + 1) (NdFloat.signum x) (fun r => if i + 1 ≤ r then b.get r i else 0) *
        (bidMat m n i (i + 1) a d e)ᵀ := by
  obtain ⟨h1, h2⟩ := ha
  have ht : a.t.nr = n := h2
  have htc : a.t.nc = m := h1
  have ok := h.ok
  rw [ht] at ok
  ext c r
  rw [house_mul_hApp _ (fun k => bidPartial i (i + 1) a d e r k) c r (fun _ => rfl)]
  simp only [bidMat, Matrix.of_apply, Matrix.transpose_apply]
  by_cases hci : (c : Nat) < i + 1
  · rw [hApp, if_pos hci]
    simp only [bidPartial]
    split_ifs <;> first | rfl | omega
  · by_cases hri : (r : Nat) < i
    · rw [hApp_zero ok.supp _ c.2]
      · simp only [bidPartial]
        split_ifs <;> first | rfl | omega
      · intro k hk _
        simp only [bidPartial]
        split_ifs <;> first | rfl | omega
    · have e1 : hApp n (i + 1) (NdFloat.signum x) (fun r => if i + 1 ≤ r then b.get r i else 0)
          (fun k => bidPartial i (i + 1) a d e r k) c =
          hApp n (i + 1) (NdFloat.signum x) (fun r => if i + 1 ≤ r then b.get r i else 0)
          (fun k => a.t.get k r) c := by
        unfold hApp
        rw [if_neg hci, if_neg hci]
        have q : ∀ k, i + 1 ≤ k → bidPartial i (i + 1) a d e r k = a.t.get k r := by
          intro k hk; rw [bidPartial, if_pos (by omega)]; rfl
        simp only
        rw [q c (by omega)]
        congr 3
        apply Finset.sum_congr rfl
        intro k _
        by_cases hk : i + 1 ≤ k
        · rw [q k hk]
        · rw [if_neg hk, zero_mul, zero_mul]
      rw [e1]
      by_cases hre : (r : Nat) = i
      · have := h.col c (by rw [ht]; exact c.2)
        rw [ht] at this
        rw [hre, this, if_neg hci]
        simp only [bidPartial]
        rw [if_neg (by omega)]
        by_cases hce : (c : Nat) = i + 1
        · rw [if_neg (by omega), if_pos hce, if_pos hce, if_pos trivial]
        · rw [if_neg (by omega), if_neg hce, if_neg hce]
      · have := h.right c r (by rw [ht]; exact c.2) (by omega) (by rw [htc]; exact r.2)
        rw [ht] at this
        rw [← this]
        simp only [bidPartial]
        rw [if_pos (by omega)]
        rfl

/-- The loop invariant of `bidiagonal` after `i` columns and `j` rows. -/
structure BidInv (m n i j : Nat) (a : Arr2 ℝ) (s : Arr2 ℝ × Arr1 ℝ × Arr1 ℝ) : Prop
    extends BidiagShape m n s where
  left : ∀ k, k < i → StoredOk m s.1 0 s.2.1.get k
  right : ∀ k, k < j → StoredOk n s.1.t 1 s.2.2.get k
  eq : toMat m n a = prodP (storedP m s.1 0 s.2.1.get) i * bidMat m n j i s.1 s.2.1.get s.2.2.get *
    (prodP (storedP n s.1.t 1 s.2.2.get) j)ᵀ

theorem upd_get_eq {f : Arr1 ℝ} {i : Nat} {x : ℝ} :
    (f.upd i x).get = fun k => if k = i then x else f.get k := by
  funext k; rw [Arr1.upd_get]

theorem BidInv.col {m n i : Nat} {a : Arr2 ℝ} {b : Arr2 ℝ} {d o : Arr1 ℝ}
    (h : BidInv m n i i a (b, d, o)) (hn : i < n) (hm : i < m) :
    ∃ b' x, clearColumn b i 0 = .ok (b', x) ∧ BidInv m n (i + 1) i a (b', d.upd i x, o) := by
  obtain ⟨⟨h1, h2, h3, h4⟩, hl, hr, heq⟩ := h
  simp only at h1 h2 h3 h4 hl hr heq
  obtain ⟨b', x, e, cs⟩ := clearColumn_real b i 0 (by omega) (by omega)
  rw [Nat.add_zero] at cs
  refine ⟨b', x, e, ⟨cs.nr.trans h1, cs.nc.trans h2, h3, h4⟩, ?_, ?_, ?_⟩
  · intro k hk
    by_cases hki : k = i
    · subst hki
      unfold StoredOk
      simp only [upd_get_eq, if_true]
      have := cs.ok
      rwa [h1] at this
    · exact storedOk_congr (hl k (by omega)) (fun r => cs.left r k (by omega))
        (by simp only [upd_get_eq]; rw [if_neg hki])
  · intro k hk
    exact storedOk_congr (hr k hk) (fun r => cs.top k r (by omega)) rfl
  · simp only
    have c1 : prodP (storedP m b' 0 (d.upd i x).get) i = prodP (storedP m b 0 d.get) i :=
      prodP_congr fun k hk => storedP_congr (fun r => cs.left r k hk)
        (by simp only [upd_get_eq]; rw [if_neg (by omega)])
    have c2 : prodP (storedP n b'.t 1 o.get) i = prodP (storedP n b.t 1 o.get) i :=
      prodP_congr fun k hk => storedP_congr (fun r => cs.top k r hk) rfl
    have ok : HouseOk m i (NdFloat.signum x) (fun r => if i ≤ r then b'.get r i else 0) := by
      have := cs.ok
      rwa [h1] at this
    have c3 : storedP m b' 0 (d.upd i x).get i =
        house m i (NdFloat.signum x) (fun r => if i ≤ r then b'.get r i else 0) := by
      unfold storedP
      simp only [upd_get_eq, if_true, Nat.add_zero]
    rw [prodP, c1, c2, c3, upd_get_eq, bid_col_step ⟨h1, h2⟩ hn cs, heq]
    simp only [Matrix.mul_assoc]
    rw [← Matrix.mul_assoc (house m i _ _) (house m i _ _), house_mul_self ok, Matrix.one_mul]

theorem BidInv.row {m n i : Nat} {a : Arr2 ℝ} {b : Arr2 ℝ} {d o : Arr1 ℝ}
    (h : BidInv m n (i + 1) i a (b, d, o)) (hn : i + 1 < n) (hm : i < m) :
    ∃ b' x, clearRow b i 1 = .ok (b', x) ∧ BidInv m n (i + 1) (i + 1) a (b', d, o.upd i x) := by
  obtain ⟨⟨h1, h2, h3, h4⟩, hl, hr, heq⟩ := h
  simp only at h1 h2 h3 h4 hl hr heq
  obtain ⟨b', x, e, cs⟩ := clearColumn_real b.t i 1 (show i < b.nr by omega)
    (show i + 1 < b.nc by omega)
  have ok : HouseOk n (i + 1) (NdFloat.signum x) (fun r => if i + 1 ≤ r then b'.get r i else 0) := by
    have := cs.ok
    rwa [show b.t.nr = n from h2] at this
  refine ⟨b'.t, x, ?_, ⟨cs.nc.trans h1, cs.nr.trans h2, h3, h4⟩, ?_, ?_, ?_⟩
  · unfold clearRow; rw [e]; rfl
  · intro k hk
    exact storedOk_congr (hl k hk) (fun r => cs.top k r (by omega)) rfl
  · intro k hk
    by_cases hki : k = i
    · subst hki
      unfold StoredOk
      simp only [upd_get_eq, if_true]
      exact ok
    · exact storedOk_congr (hr k (by omega)) (fun r => cs.left r k (by omega))
        (by simp only [upd_get_eq]; rw [if_neg hki])
  · simp only
    have c1 : prodP (storedP m b'.t 0 d.get) (i + 1) = prodP (storedP m b 0 d.get) (i + 1) :=
      prodP_congr fun k hk => storedP_congr (fun r => cs.top k r hk) rfl
    have c2 : prodP (storedP n b' 1 (o.upd i x).get) i = prodP (storedP n b.t 1 o.get) i :=
      prodP_congr fun k hk => storedP_congr (fun r => cs.left r k hk)
        (by simp only [upd_get_eq]; rw [if_neg (by omega)])
    have c3 : storedP n b' 1 (o.upd i x).get i =
        house n (i + 1) (NdFloat.signum x) (fun r => if i + 1 ≤ r then b'.get r i else 0) := by
      unfold storedP
      simp only [upd_get_eq, if_true]
    have c4 := bid_row_step (d := d.get) (e := o.get) ⟨h1, h2⟩ hm cs
    rw [← Matrix.transpose_inj, Matrix.transpose_transpose, Matrix.transpose_mul,
      Matrix.transpose_transpose, house_symm ok] at c4
    rw [c1, heq]
    rw [show b'.t.t = b' from rfl, prodP, prodP, c2, c3, upd_get_eq, c4, Matrix.transpose_mul, house_symm ok]
    simp only [Matrix.mul_assoc]
    rw [← Matrix.mul_assoc (house n (i + 1) _ _) (house n (i + 1) _ _), house_mul_self ok,
      Matrix.one_mul]

theorem bidiagTall_real {m n : Nat} (a : Arr2 ℝ) (ha : HasShape a m n) (h0 : 1 ≤ n) (h : n ≤ m) :
    ∃ s, bidiagTall a = .ok s ∧ BidInv m n n (n - 1) a s := by
  unfold bidiagTall
  rw [ha.2]
  have hw : Succeeds (forRange 0 (n - 1)
      (a, (Arr1.zeros n : Arr1 ℝ), (Arr1.zeros (n - 1) : Arr1 ℝ)) bidiagStep)
      (BidInv m n (n - 1) (n - 1) a) := by
    refine wp_forRange (fun i => BidInv m n i i a) (Nat.zero_le _) ?_ ?_
    · refine ⟨⟨ha.1, ha.2, rfl, rfl⟩, by intro k hk; omega, by intro k hk; omega, ?_⟩
      simp only [prodP, Matrix.one_mul, Matrix.transpose_one, Matrix.mul_one]
      ext r c
      simp [bidMat, bidPartial]
    · rintro i ⟨b, d, o⟩ _ hi hinv
      unfold bidiagStep
      obtain ⟨b', x, e, hc⟩ := hinv.col (by omega) (by omega)
      simp only [e, ok_bind]
      rw [Arr1.idxSet_ok (by have := hinv.dlen; simp only at this; omega)]
      simp only [ok_bind]
      obtain ⟨b'', y, e, hr⟩ := hc.row (by omega) (by omega)
      simp only [e, ok_bind]
      rw [Arr1.idxSet_ok (by have := hinv.olen; simp only at this; omega)]
      exact hr
  obtain ⟨⟨b, d, o⟩, e, hinv⟩ := succeeds_iff.1 hw
  rw [e]
  simp only [ok_bind]
  obtain ⟨b', x, e, hc⟩ := hinv.col (by omega) (by omega)
  simp only [e, ok_bind]
  rw [Arr1.idxSet_ok (by have := hinv.dlen; simp only at this; omega)]
  refine ⟨_, rfl, ?_⟩
  rwa [Nat.sub_add_cancel h0] at hc

/-- The upper bidiagonal matrix with diagonal `d` and off-diagonal `e`. -/
def bidiag (n : Nat) (d e : Nat → ℝ) : Matrix (Fin n) (Fin n) ℝ :=
  Matrix.of fun r c => if (r : Nat) = c then d r else if (c : Nat) = r + 1 then e r else 0

theorem assembleQ_real' {m D : Nat} (a : Arr2 ℝ) (shift : Nat) (diagFn : Nat → M ℝ) (d : Nat → ℝ)
    (hm : a.nr = m) (hD : min a.nr a.nc = D) (hs : shift ≤ D)
    (hd : ∀ i, i < D - shift → diagFn i = .ok (d i))
    (hok : ∀ i, i < D - shift → StoredOk m a shift d i) :
    ∃ q, assembleQ a shift diagFn = .ok q ∧ HasShape q m D ∧
      toMat m D q = prodP (storedP m a shift d) (D - shift) * eyeMat m D := by
  subst hm hD
  exact assembleQ_real a shift diagFn d hs hd hok

theorem BidInv.final {m n : Nat} {a : Arr2 ℝ} {s : Arr2 ℝ × Arr1 ℝ × Arr1 ℝ} (h0 : 1 ≤ n)
    (hmn : n ≤ m) (h : BidInv m n n (n - 1) a s) :
    ∃ U V, assembleQ s.1 0 (fun i => s.2.1.idx i) = .ok U ∧
      assembleQ s.1.t 1 (fun i => s.2.2.idx i) = .ok V ∧ HasShape U m n ∧ HasShape V n n ∧
      (toMat m n U)ᵀ * toMat m n U = 1 ∧ (toMat n n V)ᵀ * toMat n n V = 1 ∧
      toMat m n U * bidiag n (fun i => |s.2.1.get i|) (fun i => |s.2.2.get i|) * (toMat n n V)ᵀ =
        toMat m n a := by
  obtain ⟨b, d, o⟩ := s
  obtain ⟨⟨h1, h2, h3, h4⟩, hl, hr, heq⟩ := h
  simp only at h1 h2 h3 h4 hl hr heq
  obtain ⟨U, e1, s1, t1⟩ := assembleQ_real' (m := m) (D := n) b 0 (fun i => d.idx i) d.get h1
    (by rw [h1, h2, min_eq_right hmn]) (Nat.zero_le _)
    (fun i hi => Arr1.idx_ok (by omega)) (fun i hi => hl i (by omega))
  obtain ⟨V, e2, s2, t2⟩ := assembleQ_real' (m := n) (D := n) b.t 1 (fun i => o.idx i) o.get h2
    (show min b.nc b.nr = n by rw [h1, h2, min_eq_left hmn]) h0
    (fun i hi => Arr1.idx_ok (by omega)) (fun i hi => hr i hi)
  have eye1 : eyeMat n n = 1 := by
    ext i j; simp [eyeMat, Matrix.one_apply, Fin.ext_iff]
  rw [eye1, Matrix.mul_one] at t2
  rw [Nat.sub_zero] at t1
  refine ⟨U, V, e1, e2, s1, s2, ?_, ?_, ?_⟩
  · rw [t1]; exact assembled_orth hmn hl
  · rw [t2]; exact prodP_orth fun k hk => storedP_orth (hr k hk)
  · rw [t1, t2, heq]
    congr 1
    rw [Matrix.mul_assoc]
    congr 1
    ext r c
    rw [Matrix.mul_apply]
    simp only [eyeMat, bidiag, bidMat, Matrix.of_apply]
    unfold bidPartial
    rw [if_neg (by omega)]
    by_cases hrn : (r : Nat) < n
    · rw [Finset.sum_eq_single (⟨r, hrn⟩ : Fin n)]
      · simp
      · intro k _ hk
        rw [if_neg (fun h => hk (Fin.ext h.symm)), zero_mul]
      · intro h; exact absurd (Finset.mem_univ _) h
    · rw [if_neg (by omega), if_neg (by omega), Finset.sum_eq_zero]
      intro k _
      rw [if_neg (by omega), zero_mul]

/-- The bidiagonal matrix a decomposition stands for. -/
noncomputable def BidiagonalDecomp.bMat (b : BidiagonalDecomp ℝ) (n : Nat) :
    Matrix (Fin n) (Fin n) ℝ :=
  if b.upperDiag then bidiag n (fun i => |b.diagonal.get i|) (fun i => |b.offDiagonal.get i|)
  else (bidiag n (fun i => |b.diagonal.get i|) (fun i => |b.offDiagonal.get i|))ᵀ

theorem bidiagonal_real {m n : Nat} (a : Arr2 ℝ) (ha : HasShape a m n) (h0 : min m n ≠ 0) :
    ∃ b U Vt, bidiagonal a = .ok b ∧ b.generateU = .ok U ∧ b.generateVt = .ok Vt ∧
      b.upperDiag = decide (n ≤ m) ∧
      b.diagonal.len = min m n ∧ b.offDiagonal.len = min m n - 1 ∧
      HasShape U m (min m n) ∧ HasShape Vt (min m n) n ∧
      (toMat m (min m n) U)ᵀ * toMat m (min m n) U = 1 ∧
      toMat (min m n) n Vt * (toMat (min m n) n Vt)ᵀ = 1 ∧
      toMat m (min m n) U * b.bMat (min m n) * toMat (min m n) n Vt = toMat m n a := by
  by_cases h : n ≤ m
  · rw [min_eq_right h] at *
    obtain ⟨s, e, hs⟩ := bidiagTall_real a ha (by omega) h
    obtain ⟨b, e, rfl⟩ := relM_ok_left (bidiagonal_tall a (by rw [ha.1, ha.2]; omega)
      (by rw [ha.1, ha.2]; exact h)) e
    obtain ⟨U, V, e1, e2, s1, s2, o1, o2, he⟩ := hs.final (by omega) h
    refine ⟨_, U, V.t, e, e1, ?_, by simp [h], hs.dlen, hs.olen, s1, ⟨s2.2, s2.1⟩, o1, ?_, ?_⟩
    · unfold BidiagonalDecomp.generateVt
      simp only [if_true, e2]; rfl
    · have : toMat n n V.t = (toMat n n V)ᵀ := rfl
      rw [this, Matrix.transpose_transpose, o2]
    · have : toMat n n V.t = (toMat n n V)ᵀ := rfl
      rw [this, BidiagonalDecomp.bMat, if_pos rfl, he]
  · have h' : m < n := by omega
    rw [min_eq_left h'.le] at *
    obtain ⟨s, e, hs⟩ := bidiagTall_real a.t ⟨ha.2, ha.1⟩ (by omega) h'.le
    obtain ⟨b, e, rfl⟩ := relM_ok_left (bidiagonal_wide a (by rw [ha.1, ha.2]; omega)
      (by rw [ha.1, ha.2]; exact h')) e
    obtain ⟨U, V, e1, e2, s1, s2, o1, o2, he⟩ := hs.final (by omega) h'.le
    refine ⟨_, V, U.t, e, ?_, ?_, by simp [h'], hs.dlen, hs.olen, s2, ⟨s1.2, s1.1⟩, o2, ?_, ?_⟩
    · unfold BidiagonalDecomp.generateU
      simp only [Bool.false_eq_true, if_false]
      exact e2
    · unfold BidiagonalDecomp.generateVt
      simp only [Bool.false_eq_true, if_false]
      rw [show s.1.t.t = s.1 from rfl, e1]; rfl
    · have : toMat m n U.t = (toMat n m U)ᵀ := rfl
      rw [this, Matrix.transpose_transpose, o1]
    · have : toMat m n U.t = (toMat n m U)ᵀ := rfl
      rw [this, BidiagonalDecomp.bMat, if_neg (by simp)]
      have h2 : toMat m n a = (toMat n m a.t)ᵀ := rfl
      rw [h2, ← he, Matrix.transpose_mul, Matrix.transpose_mul, Matrix.transpose_transpose,
        Matrix.mul_assoc]

end LinfaLinalg
