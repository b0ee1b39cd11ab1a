import Verif.Model.Tridiagonal
import Verif.Proofs.Qr

/-! # Tridiagonal decomposition -/

set_option linter.unusedSectionVars false

namespace LinfaLinalg

open Matrix

section generic
variable {α : Type} [Zero α] [One α] [Add α] [Sub α] [Mul α] [Div α] [Neg α] [NdFloat α]

theorem matVecMul_ok {alpha : α} {m : Arr2 α} {x y : Arr1 α} (h : m.nc = x.len)
    (h' : m.nr = y.len) : matVecMul alpha m x y =
      .ok ⟨y.len, fun i => dotTo m.nc (m.get i) x.get * alpha⟩ := by
  simp [matVecMul, h, h']

theorem rankOneUpdate_ok {alpha : α} {u v : Arr1 α} {c : Arr2 α} (h : u.len = c.nr)
    (h' : v.len = c.nc) : rankOneUpdate alpha u v c =
      .ok ⟨c.nr, c.nc, fun i j => c.get i j + alpha * (u.get i * v.get j)⟩ := by
  simp [rankOneUpdate, h, h']

theorem tridiagStep_ok {n : Nat} (i : Nat) (a : Arr2 α) (off p : Arr1 α) (hi : i < n - 1)
    (h1 : a.nr = n) (h2 : a.nc = n) (h3 : off.len = n - 1) (h4 : p.len = n - 1) :
    ∃ b off' p', tridiagStep i a off p = .ok (b, off', p') ∧ b.nr = n ∧ b.nc = n ∧
      off'.len = n - 1 ∧ p'.len = n - 1 := by
  unfold tridiagStep
  rw [Arr2.colSlice_ok (by omega) le_rfl (by omega)]
  simp only [ok_bind]
  rw [Arr2.slice_ok (by omega) le_rfl (by omega) le_rfl]
  simp only [ok_bind]
  obtain ⟨w, o, hw, hl⟩ := reflectionAxisMut_ok
    (⟨a.nr - (i + 1), fun k => a.get (i + 1 + k) i⟩ : Arr1 α) (by simp; omega)
  simp only at hl
  rw [hw]
  simp only [ok_bind]
  rw [Arr1.idxSet_ok (by omega)]
  simp only [ok_bind]
  cases o with
  | none => exact ⟨_, _, _, rfl, h1, h2, h3, h4⟩
  | some ν =>
    simp only [Option.isSome_some, if_true]
    rw [Arr1.slice_ok (by omega) le_rfl]
    simp only [ok_bind]
    rw [matVecMul_ok (by simp only; omega) (by simp only; omega)]
    simp only [ok_bind]
    rw [Arr1.dot_ok (by simp only; omega)]
    simp only [ok_bind]
    rw [rankOneUpdate_ok (by simp only; omega) (by simp only; omega)]
    simp only [ok_bind]
    rw [rankOneUpdate_ok (by simp only; omega) (by simp only; omega)]
    simp only [ok_bind]
    rw [rankOneUpdate_ok (by simp only; omega) (by simp only; omega)]
    exact ⟨_, _, _, rfl, h1, h2, h3, h4⟩

/-- The shapes inside a tridiagonal decomposition of an `n × n` matrix. -/
structure TriShape (n : Nat) (t : TridiagonalDecomp α) : Prop where
  nr : t.diagMatrix.nr = n
  nc : t.diagMatrix.nc = n
  len : t.offDiagonal.len = n - 1

theorem symTridiagonal_ok (a : Arr2 α) (hs : a.nr = a.nc) (hn : 1 ≤ a.nr) :
    ∃ t, symTridiagonal a = .ok t ∧ TriShape a.nr t := by
  have hw : Succeeds (forRange 0 (a.nr - 1)
      (a, (Arr1.zeros (a.nr - 1) : Arr1 α), (Arr1.zeros (a.nr - 1) : Arr1 α))
      fun i (a, off, p) => tridiagStep i a off p)
      (fun s : Arr2 α × Arr1 α × Arr1 α => s.1.nr = a.nr ∧ s.1.nc = a.nr ∧
        s.2.1.len = a.nr - 1 ∧ s.2.2.len = a.nr - 1) := by
    refine wp_forRange (fun _ (s : Arr2 α × Arr1 α × Arr1 α) => s.1.nr = a.nr ∧ s.1.nc = a.nr ∧
        s.2.1.len = a.nr - 1 ∧ s.2.2.len = a.nr - 1) (Nat.zero_le _) ⟨rfl, hs.symm, rfl, rfl⟩ ?_
    rintro i ⟨b, off, p⟩ _ hi ⟨h1, h2, h3, h4⟩
    obtain ⟨b', off', p', h, h1, h2, h3, h4⟩ := tridiagStep_ok i b off p hi h1 h2 h3 h4
    exact wp_of_ok h ⟨h1, h2, h3, h4⟩
  obtain ⟨⟨b, off, p⟩, h, h1, h2, h3, -⟩ := succeeds_iff.1 hw
  refine ⟨⟨b, off⟩, ?_, ⟨h1, h2, h3⟩⟩
  unfold symTridiagonal
  rw [checkSquare_ok hs]
  simp only [ok_bind]
  rw [if_neg (by omega), h]
  rfl

theorem symTridiagonal_notSquare (a : Arr2 α) (hs : a.nr ≠ a.nc) :
    symTridiagonal a = .error (.err (.notSquare a.nr a.nc)) := by
  unfold symTridiagonal
  rw [checkSquare_err hs]; rfl

theorem symTridiagonal_empty (a : Arr2 α) (hs : a.nr = a.nc) (hn : a.nr = 0) :
    symTridiagonal a = .error (.err .emptyMatrix) := by
  unfold symTridiagonal
  rw [checkSquare_ok hs]
  simp only [ok_bind]
  rw [if_pos (by omega)]; rfl

theorem TriShape.generateQ_ok {n : Nat} {t : TridiagonalDecomp α} (h : TriShape n t)
    (hn : 1 ≤ n) : ∃ q, t.generateQ = .ok q ∧ q.nr = n ∧ q.nc = n := by
  have hm : min t.diagMatrix.nr t.diagMatrix.nc = n := by rw [h.nr, h.nc, min_self]
  obtain ⟨q, h1, h2, h3⟩ := assembleQ_ok t.diagMatrix 1 (fun i => t.offDiagonal.idx i)
    (by rw [hm]; exact hn) (fun i hi => ⟨_, Arr1.idx_ok (by rw [h.len]; rw [hm] at hi; exact hi)⟩)
  exact ⟨q, h1, h2.trans h.nr, h3.trans hm⟩

/-- Closed form of `into_tridiag_matrix`. -/
theorem TriShape.intoTridiagMatrix_eq {n : Nat} {t : TridiagonalDecomp α} (h : TriShape n t) :
    ∃ r, t.intoTridiagMatrix = .ok r ∧ r.nr = n ∧ r.nc = n ∧ ∀ i j, i < n → j < n →
      r.get i j = if i = j then t.diagMatrix.get i i
        else if i = j + 1 then NdFloat.abs (t.offDiagonal.get j)
        else if j = i + 1 then NdFloat.abs (t.offDiagonal.get i) else 0 := by
  unfold TridiagonalDecomp.intoTridiagMatrix
  rw [triangularInplace_upper _ (by rw [h.nr, h.nc])]
  simp only [unwrapM, ok_bind]
  rw [triangularInplace_lower _ (by simp only [h.nr, h.nc])]
  simp only [ok_bind]
  have hw := wp_forRange (lo := 0) (hi := t.offDiagonal.len)
    (s := (⟨t.diagMatrix.nr, t.diagMatrix.nc, fun k l =>
      if k < t.diagMatrix.nr ∧ k < l ∧ l < t.diagMatrix.nr then 0
      else if k < t.diagMatrix.nr ∧ l < k then 0 else t.diagMatrix.get k l⟩ : Arr2 α))
    (f := fun i (a : Arr2 α) => do
      let off := NdFloat.abs (t.offDiagonal.get i)
      let a ← a.idxSet (i + 1) i off
      a.idxSet i (i + 1) off)
    (E := fun _ => False)
    (fun k (r : Arr2 α) => r.nr = n ∧ r.nc = n ∧ ∀ i j, i < n → j < n →
      r.get i j = if i = j then t.diagMatrix.get i i
        else if i = j + 1 ∧ j < k then NdFloat.abs (t.offDiagonal.get j)
        else if j = i + 1 ∧ i < k then NdFloat.abs (t.offDiagonal.get i) else 0)
    (Nat.zero_le _)
    ⟨h.nr, h.nc, by
      intro i j hi hj
      simp only [h.nr, Nat.not_lt_zero, and_false, if_false]
      by_cases hij : i = j
      · subst hij; simp
      · rw [if_neg hij]
        by_cases hlt : i < j
        · rw [if_pos ⟨hi, hlt, hj⟩]
        · rw [if_neg (by omega), if_pos (by omega)]⟩
    (by
      rintro k r _ hk ⟨h1, h2, h3⟩
      rw [h.len] at hk
      simp only
      rw [Arr2.idxSet_ok (by omega) (by omega)]
      simp only [ok_bind]
      rw [Arr2.idxSet_ok (by simp only [Arr2.upd_nr]; omega) (by simp only [Arr2.upd_nc]; omega)]
      simp only [wp_ok]
      refine ⟨h1, h2, ?_⟩
      intro i j hi hj
      simp only [Arr2.upd_get]
      by_cases e1 : i = k ∧ j = k + 1
      · obtain ⟨rfl, rfl⟩ := e1
        rw [if_pos ⟨rfl, rfl⟩, if_neg (by omega), if_neg (by omega), if_pos (by omega)]
      · rw [if_neg e1]
        by_cases e2 : i = k + 1 ∧ j = k
        · obtain ⟨rfl, rfl⟩ := e2
          rw [if_pos ⟨rfl, rfl⟩, if_neg (by omega), if_pos (by omega)]
        · rw [if_neg e2, h3 i j hi hj]
          by_cases e3 : i = j
          · rw [if_pos e3, if_pos e3]
          · rw [if_neg e3, if_neg e3]
            have q1 : (i = j + 1 ∧ j < k) ↔ (i = j + 1 ∧ j < k + 1) := by omega
            have q2 : (j = i + 1 ∧ i < k) ↔ (j = i + 1 ∧ i < k + 1) := by omega
            simp only [q1, q2])
  obtain ⟨r, hr, h1, h2, h3⟩ := succeeds_iff.1 hw
  refine ⟨r, hr, h1, h2, ?_⟩
  intro i j hi hj
  rw [h3 i j hi hj, h.len]
  by_cases e3 : i = j
  · rw [if_pos e3, if_pos e3]
  · rw [if_neg e3, if_neg e3]
    have q1 : (i = j + 1 ∧ j < n - 1) ↔ (i = j + 1) := by omega
    have q2 : (j = i + 1 ∧ i < n - 1) ↔ (j = i + 1) := by omega
    simp only [q1, q2]

end generic

/-! ## Over the reals -/

/-- What one step of the tridiagonalization does. -/
structure TriStep (n i : Nat) (a b : Arr2 ℝ) (d : ℝ) (w : Nat → ℝ) : Prop where
  shape : HasShape b n n
  wdef : ∀ r, r < n → w r = if i + 1 ≤ r then b.get r i else 0
  ok : HouseOk n (i + 1) (NdFloat.signum d) w
  frame : ∀ r c, c < i ∨ r ≤ i → b.get r c = a.get r c
  col : ∀ r, r < n → hApp n (i + 1) (NdFloat.signum d) w (fun k => a.get k i) r =
    if r < i + 1 then a.get r i else if r = i + 1 then |d| else 0
  block : ∀ r c, r < n → c < n → i + 1 ≤ r → i + 1 ≤ c → b.get r c = a.get r c
    - 2 * (∑ k ∈ Finset.range n, a.get r k * w k) * w c
    - 2 * (∑ k ∈ Finset.range n, a.get c k * w k) * w r
    + 4 * (∑ k ∈ Finset.range n, w k * ∑ l ∈ Finset.range n, a.get k l * w l) * w r * w c

theorem tridiagStep_real {n : Nat} (i : Nat) (a : Arr2 ℝ) (off p : Arr1 ℝ) (hi : i < n - 1)
    (ha : HasShape a n n) (h3 : off.len = n - 1) (h4 : p.len = n - 1) :
    ∃ b d p' w, tridiagStep i a off p = .ok (b, off.upd i d, p') ∧ p'.len = n - 1 ∧
      TriStep n i a b d w := by
  obtain ⟨h1, h2⟩ := ha
  unfold tridiagStep
  rw [Arr2.colSlice_ok (by omega) le_rfl (by omega)]
  simp only [ok_bind]
  rw [Arr2.slice_ok (by omega) le_rfl (by omega) le_rfl]
  simp only [ok_bind, h1, h2]
  have hin : i + 1 ≤ n := by omega
  obtain ⟨w, o, hw, hl, hs, ho⟩ := reflectionAxisMut_real
    (⟨n - (i + 1), fun k => a.get (i + 1 + k) i⟩ : Arr1 ℝ) (by simp; omega)
  simp only at hl hs
  rw [hw]
  simp only [ok_bind]
  rw [Arr1.idxSet_ok (by omega)]
  simp only [ok_bind]
  set d : ℝ := o.getD 0 with hd
  set W := shiftVec (i + 1) w.get with hW
  have hok : HouseOk n (i + 1) (NdFloat.signum d) W := by
    refine ⟨fun r h => shiftVec_lt _ h, real_signum_sq _, fun r h => ?_⟩
    by_cases hrp : r < i + 1
    · rw [hW, shiftVec_lt _ hrp, zero_mul]
    · have := hs.unit (r - (i + 1)) (by omega)
      rw [sum_range_supp hin _ (fun k hk => by rw [hW, shiftVec_lt _ hk, zero_mul])]
      simp only [hW, shiftVec_add]
      rw [shiftVec, if_pos (by omega)]
      exact this
  have hcolr : ∀ r, r < n → hApp n (i + 1) (NdFloat.signum d) W
      (fun k => a.get k i) r =
        if r < i + 1 then a.get r i else if r = i + 1 then |d| else 0 := by
    intro r hr
    unfold hApp
    by_cases hip : r < i + 1
    · rw [if_pos hip, if_pos hip]
    · rw [if_neg hip, if_neg hip, sum_range_supp hin _
        (fun k hk => by rw [hW, shiftVec_lt _ hk, zero_mul])]
      simp only [hW, shiftVec_add]
      have := hs.refl (r - (i + 1)) (by omega)
      rw [show i + 1 + (r - (i + 1)) = r by omega] at this
      rw [shiftVec, if_pos (by omega), this]
      by_cases hipe : r = i + 1
      · rw [if_pos (by omega), if_pos hipe, real_signum_mul_self]
      · rw [if_neg (by omega), if_neg hipe, mul_zero]
  have hput : ∀ r c, (a.putCol (i + 1) i w).get r c =
      if c = i ∧ i + 1 ≤ r ∧ r < n then w.get (r - (i + 1)) else a.get r c := by
    intro r c
    simp only [Arr2.putCol, hl, show i + 1 + (n - (i + 1)) = n by omega]
  have hsumr : ∀ f : Nat → ℝ, ∑ k ∈ Finset.range n, f k * W k =
      ∑ k ∈ Finset.range (n - (i + 1)), f (i + 1 + k) * w.get k := by
    intro f
    rw [sum_range_supp hin _ (fun k hk => by rw [hW, shiftVec_lt _ hk, mul_zero])]
    simp only [hW, shiftVec_add]
  have hsuml : ∀ f : Nat → ℝ, ∑ k ∈ Finset.range n, W k * f k =
      ∑ k ∈ Finset.range (n - (i + 1)), w.get k * f (i + 1 + k) := by
    intro f
    rw [sum_range_supp hin _ (fun k hk => by rw [hW, shiftVec_lt _ hk, zero_mul])]
    simp only [hW, shiftVec_add]
  have hWge : ∀ r, i + 1 ≤ r → W r = w.get (r - (i + 1)) := by
    intro r hr; rw [hW, shiftVec, if_pos hr]
  cases o with
  | none =>
    have hd0 : d = 0 := rfl
    have hz : ∀ k, W k = 0 ∨ n ≤ k := by
      intro k
      by_cases hkn : k < n
      · left
        by_cases hk : k < i + 1
        · rw [hW, shiftVec_lt _ hk]
        · rw [hWge k (by omega)]; exact hs.zero hd0 _ (by omega)
      · right; omega
    have hzs : ∀ f : Nat → ℝ, ∑ k ∈ Finset.range n, f k * W k = 0 := by
      intro f
      apply Finset.sum_eq_zero
      intro k hk
      rw [Finset.mem_range] at hk
      rcases hz k with h | h
      · rw [h, mul_zero]
      · omega
    refine ⟨_, d, _, W, rfl, h4, ⟨h1, h2⟩, ?_, hok, ?_, hcolr, ?_⟩
    · intro r hr
      rw [hput]
      by_cases h : i + 1 ≤ r
      · rw [if_pos h, if_pos ⟨rfl, h, hr⟩, hWge r h]
      · rw [if_neg h, hW, shiftVec_lt _ (by omega)]
    · intro r c h
      rw [hput, if_neg (by omega)]
    · intro r c hr hc hir hic
      rw [hput, if_neg (by omega)]
      simp only [hzs, mul_zero, zero_mul, Finset.sum_const_zero]
      ring
  | some ν =>
    simp only [Option.isSome_some, if_true]
    rw [Arr1.slice_ok (by omega) le_rfl]
    simp only [ok_bind]
    rw [matVecMul_ok (by simp only; omega) (by simp only; omega)]
    simp only [ok_bind]
    rw [Arr1.dot_ok (by simp only; omega)]
    simp only [ok_bind]
    rw [rankOneUpdate_ok (by simp only; omega) (by simp only; omega)]
    simp only [ok_bind]
    rw [rankOneUpdate_ok (by simp only; omega) (by simp only; omega)]
    simp only [ok_bind]
    rw [rankOneUpdate_ok (by simp only; omega) (by simp only; omega)]
    simp only [ok_bind]
    refine ⟨_, d, _, W, rfl, h4, ⟨h1, h2⟩, ?_, hok, ?_, hcolr, ?_⟩
    · intro r hr
      simp only [Arr2.put]
      rw [if_neg (show ¬ (i + 1 ≤ r ∧ _ ∧ i + 1 ≤ i ∧ _) by omega), hput]
      by_cases h : i + 1 ≤ r
      · rw [if_pos h, if_pos ⟨rfl, h, hr⟩, hWge r h]
      · rw [if_neg h, hW, shiftVec_lt _ (by omega)]
    · intro r c h
      simp only [Arr2.put]
      rw [if_neg (by omega), hput, if_neg (by omega)]
    · intro r c hr hc hir hic
      simp only [Arr2.put]
      rw [if_pos (by omega)]
      simp only [hsumr, hsuml, hWge r hir, hWge c hic, dotTo_eq, hl, real_ofRat,
        show i + 1 + (r - (i + 1)) = r by omega, show i + 1 + (c - (i + 1)) = c by omega]
      push_cast
      have e : ∑ k ∈ Finset.range (n - (i + 1)), w.get k *
          ((∑ l ∈ Finset.range (n - (i + 1)), a.get (i + 1 + k) (i + 1 + l) * w.get l) * 2) =
          2 * ∑ k ∈ Finset.range (n - (i + 1)), w.get k *
          (∑ l ∈ Finset.range (n - (i + 1)), a.get (i + 1 + k) (i + 1 + l) * w.get l) := by
        rw [Finset.mul_sum]
        apply Finset.sum_congr rfl
        intro k _; ring
      rw [e]
      ring

/-- The partially tridiagonalized matrix after `i` steps. -/
noncomputable def triPartial (i : Nat) (a : Arr2 ℝ) (e : Nat → ℝ) (r c : Nat) : ℝ :=
  if i ≤ r ∧ i ≤ c then a.get r c
  else if r = c then a.get r r
  else if r = c + 1 then |e c|
  else if c = r + 1 then |e r|
  else 0

theorem hApp_zero {m p : Nat} {s : ℝ} {w f : Nat → ℝ} {i : Nat} (hw : ∀ r, r < p → w r = 0)
    (hf : ∀ r, p ≤ r → r < m → f r = 0) (hi : i < m) : hApp m p s w f i = f i := by
  unfold hApp
  by_cases h : i < p
  · rw [if_pos h]
  · rw [if_neg h, hf i (by omega) hi, Finset.sum_eq_zero]
    · ring
    · intro k hk
      rw [Finset.mem_range] at hk
      by_cases hkp : k < p
      · rw [hw k hkp, zero_mul]
      · rw [hf k (by omega) hk, mul_zero]

/-- Conjugating a symmetric matrix by a reflection, entrywise. -/
theorem house_conj_apply {n p : Nat} {s : ℝ} {w : Nat → ℝ} (hw : HouseOk n p s w)
    (T : Nat → Nat → ℝ) (hT : ∀ r c, r < n → c < n → T r c = T c r) (r c : Fin n) :
    (house n p s w * (Matrix.of fun (r c : Fin n) => T r c) * house n p s w) r c =
      hApp n p s w (fun k => hApp n p s w (fun l => T l k) c) r := by
  set X : Matrix (Fin n) (Fin n) ℝ := Matrix.of fun (r c : Fin n) => T r c with hX
  have hXs : Xᵀ = X := by
    ext i j; simp only [hX, Matrix.transpose_apply, Matrix.of_apply]; exact hT _ _ j.2 i.2
  have h1 : house n p s w * X * house n p s w = house n p s w * (house n p s w * X)ᵀ := by
    rw [Matrix.transpose_mul, hXs, house_symm hw, Matrix.mul_assoc]
  rw [h1]
  refine house_mul_hApp _ _ r c ?_
  intro k
  rw [Matrix.transpose_apply, house_mul_hApp X (fun l => T l k) c k (fun _ => rfl)]

theorem triPartial_symm {n i : Nat} {a : Arr2 ℝ} {e : Nat → ℝ}
    (hsym : ∀ r c, r < n → c < n → i ≤ r → i ≤ c → a.get r c = a.get c r) (r c : Nat)
    (hr : r < n) (hc : c < n) : triPartial i a e r c = triPartial i a e c r := by
  unfold triPartial
  split_ifs <;> first | rfl | omega | (exact hsym r c hr hc (by omega) (by omega)) | (subst_vars; rfl)

theorem triStep_conj {n i : Nat} (hi : i < n - 1) {a b : Arr2 ℝ} {e : Nat → ℝ} {d : ℝ}
    {w : Nat → ℝ} (h : TriStep n i a b d w)
    (hsym : ∀ r c, r < n → c < n → i ≤ r → i ≤ c → a.get r c = a.get c r) :
    house n (i + 1) (NdFloat.signum d) w *
      (Matrix.of fun (r c : Fin n) => triPartial i a e r c) *
      house n (i + 1) (NdFloat.signum d) w =
    Matrix.of fun (r c : Fin n) => triPartial (i + 1) b (fun k => if k = i then d else e k) r c := by
  set s := NdFloat.signum d with hs
  set T := triPartial i a e with hT
  have hTs := fun r c hr hc => triPartial_symm (e := e) hsym r c hr hc
  have hss : s * s = 1 := h.ok.sign
  have inner : ∀ c k, c < n → k < n → k ≤ i → hApp n (i + 1) s w (fun l => T l k) c =
      triPartial (i + 1) b (fun k => if k = i then d else e k) c k := by
    intro c k hc hk hki
    by_cases hkeq : k = i
    · subst hkeq
      unfold triPartial
      rw [if_neg (by omega)]
      by_cases hck : c < k + 1
      · rw [hApp, if_pos hck]
        simp only [hT, triPartial]
        by_cases hc2 : c = k
        · subst hc2; rw [if_pos ⟨le_rfl, le_rfl⟩, if_pos rfl, h.frame c c (Or.inr le_rfl)]
        · have g1 : ¬ (k ≤ c ∧ k ≤ k) := by omega
          have g2 : ¬ c = k + 1 := by omega
          by_cases hc3 : k = c + 1
          · simp only [g1, g2, hc2, if_false, if_pos hc3]
          · simp only [g1, g2, hc2, hc3, if_false]
      · have h1 := h.col c hc
        rw [if_neg hck] at h1
        rw [if_neg (by omega)]
        have h2 : hApp n (k + 1) s w (fun l => T l k) c =
            hApp n (k + 1) s w (fun l => a.get l k) c := by
          unfold hApp
          rw [if_neg hck, if_neg hck]
          simp only
          have e1 : T c k = a.get c k := by
            simp only [hT, triPartial]; rw [if_pos (by omega)]
          rw [e1]
          congr 3
          apply Finset.sum_congr rfl
          intro l _
          by_cases hl : l < k + 1
          · rw [h.ok.supp l hl, zero_mul, zero_mul]
          · have : T l k = a.get l k := by
              simp only [hT, triPartial]; rw [if_pos (by omega)]
            rw [this]
        rw [h2, h1]
        by_cases hc2 : c = k + 1
        · rw [if_pos hc2, if_pos hc2]; simp only [if_true]
        · rw [if_neg hc2, if_neg hc2, if_neg (by omega)]
    · have hz : ∀ r, i + 1 ≤ r → r < n → T r k = 0 := by
        intro r h1 h2
        simp only [hT, triPartial]
        rw [if_neg (by omega), if_neg (by omega), if_neg (by omega), if_neg (by omega)]
      rw [hApp_zero h.ok.supp hz hc]
      simp only [hT, triPartial]
      rw [if_neg (show ¬ (i ≤ c ∧ i ≤ k) by omega), if_neg (show ¬ (i + 1 ≤ c ∧ i + 1 ≤ k) by omega)]
      by_cases h2 : c = k
      · rw [if_pos h2, if_pos h2, h2, h.frame k k (Or.inl (by omega))]
      · rw [if_neg h2, if_neg h2]
        by_cases h3 : c = k + 1
        · rw [if_pos h3, if_pos h3, if_neg hkeq]
        · rw [if_neg h3, if_neg h3]
          by_cases h4 : k = c + 1
          · rw [if_pos h4, if_pos h4, if_neg (by omega)]
          · rw [if_neg h4, if_neg h4]
  ext r c
  rw [house_conj_apply h.ok T hTs r c, Matrix.of_apply]
  have hbsym : ∀ r c, r < n → c < n → i + 1 ≤ r → i + 1 ≤ c → b.get r c = b.get c r := by
    intro r c hr hc h1 h2
    rw [h.block r c hr hc h1 h2, h.block c r hc hr h2 h1, hsym r c hr hc (by omega) (by omega)]
    ring
  by_cases hr : (r : Nat) < i + 1
  · rw [hApp, if_pos hr, inner c r c.2 r.2 (by omega), triPartial_symm hbsym _ _ c.2 r.2]
  · by_cases hc : (c : Nat) < i + 1
    · rw [← inner r c r.2 c.2 (by omega)]
      apply hApp_congr_fun r.2
      intro k hk
      rw [hApp, if_pos hc]
      exact hTs _ _ c.2 hk
    · have hge : i + 1 ≤ (r : Nat) := by omega
      have hgc : i + 1 ≤ (c : Nat) := by omega
      have hTa : ∀ x y, i + 1 ≤ x → i + 1 ≤ y → T x y = a.get x y := by
        intro x y hx hy
        simp only [hT, triPartial]
        rw [if_pos (by omega)]
      have inner2 : ∀ k, i + 1 ≤ k → hApp n (i + 1) s w (fun l => T l k) c =
          s * (a.get c k - 2 * w c * ∑ l ∈ Finset.range n, w l * a.get l k) := by
        intro k hk
        rw [hApp, if_neg hc, hTa c k hgc hk]
        congr 3
        apply Finset.sum_congr rfl
        intro l _
        by_cases hl : l < i + 1
        · rw [h.ok.supp l hl, zero_mul, zero_mul]
        · rw [hTa l k (by omega) hk]
      rw [hApp, if_neg hr, inner2 r hge]
      have hsum : ∑ k ∈ Finset.range n, w k * hApp n (i + 1) s w (fun l => T l k) c =
          s * ((∑ k ∈ Finset.range n, a.get c k * w k) - 2 * w c *
            ∑ k ∈ Finset.range n, w k * ∑ l ∈ Finset.range n, a.get k l * w l) := by
        rw [Finset.mul_sum, ← Finset.sum_sub_distrib, Finset.mul_sum]
        apply Finset.sum_congr rfl
        intro k hk
        rw [Finset.mem_range] at hk
        by_cases hl : k < i + 1
        · rw [h.ok.supp k hl]; ring
        · rw [inner2 k (by omega)]
          have : ∑ l ∈ Finset.range n, w l * a.get l k = ∑ l ∈ Finset.range n, a.get k l * w l := by
            apply Finset.sum_congr rfl
            intro l hl'
            rw [Finset.mem_range] at hl'
            by_cases hl2 : l < i + 1
            · rw [h.ok.supp l hl2]; ring
            · rw [hsym k l hk hl' (by omega) (by omega)]; ring
          rw [this]; ring
      rw [hsum]
      unfold triPartial
      rw [if_pos ⟨hge, hgc⟩, h.block r c r.2 c.2 hge hgc]
      have e1 : ∑ l ∈ Finset.range n, w l * a.get l r = ∑ l ∈ Finset.range n, a.get r l * w l := by
        apply Finset.sum_congr rfl
        intro l hl'
        rw [Finset.mem_range] at hl'
        by_cases hl2 : l < i + 1
        · rw [h.ok.supp l hl2]; ring
        · rw [hsym r l r.2 hl' (by omega) (by omega)]; ring
      rw [e1, hsym r c r.2 c.2 (by omega) (by omega)]
      linear_combination (a.get c r - 2 * w c * (∑ l ∈ Finset.range n, a.get r l * w l)
        - 2 * w r * (∑ k ∈ Finset.range n, a.get c k * w k) + 4 * w r * w c *
        ∑ k ∈ Finset.range n, w k * ∑ l ∈ Finset.range n, a.get k l * w l) * hss

/-- `t` is a correct compact tridiagonal decomposition of `a`. -/
structure TriOk (n : Nat) (a : Arr2 ℝ) (t : TridiagonalDecomp ℝ) : Prop extends TriShape n t where
  stored : ∀ k, k < n - 1 → StoredOk n t.diagMatrix 1 t.offDiagonal.get k
  eq : toMat n n a = prodP (storedP n t.diagMatrix 1 t.offDiagonal.get) (n - 1) *
    (Matrix.of fun (r c : Fin n) => triPartial (n - 1) t.diagMatrix t.offDiagonal.get r c) *
    (prodP (storedP n t.diagMatrix 1 t.offDiagonal.get) (n - 1))ᵀ

theorem symTridiagonal_real {n : Nat} (a : Arr2 ℝ) (ha : HasShape a n n) (hn : 1 ≤ n)
    (hs : (toMat n n a).IsSymm) : ∃ t, symTridiagonal a = .ok t ∧ TriOk n a t := by
  have hsa : ∀ r c, r < n → c < n → a.get r c = a.get c r := by
    intro r c hr hc
    exact congrFun (congrFun hs ⟨c, hc⟩) ⟨r, hr⟩
  have hw : Succeeds (forRange 0 (n - 1)
      (a, (Arr1.zeros (n - 1) : Arr1 ℝ), (Arr1.zeros (n - 1) : Arr1 ℝ))
      fun i (a, off, p) => tridiagStep i a off p)
      (fun s : Arr2 ℝ × Arr1 ℝ × Arr1 ℝ => TriOk n a ⟨s.1, s.2.1⟩) := by
    refine wp_conseq (wp_forRange (fun i (s : Arr2 ℝ × Arr1 ℝ × Arr1 ℝ) =>
      (HasShape s.1 n n ∧ s.2.1.len = n - 1 ∧ s.2.2.len = n - 1) ∧
      (∀ r c, r < n → c < n → i ≤ r → i ≤ c → s.1.get r c = s.1.get c r) ∧
      (∀ k, k < i → StoredOk n s.1 1 s.2.1.get k) ∧
      toMat n n a = prodP (storedP n s.1 1 s.2.1.get) i *
        (Matrix.of fun (r c : Fin n) => triPartial i s.1 s.2.1.get r c) *
        (prodP (storedP n s.1 1 s.2.1.get) i)ᵀ) (Nat.zero_le _) ?_ ?_) ?_
    · refine ⟨⟨ha, rfl, rfl⟩, fun r c hr hc _ _ => hsa r c hr hc, by intro k hk; omega, ?_⟩
      rw [prodP, Matrix.one_mul, Matrix.transpose_one, Matrix.mul_one]
      ext r c
      simp [triPartial]
    · rintro i ⟨b, off, p⟩ _ hi ⟨⟨h1, h2, h3⟩, hsym, hst, heq⟩
      simp only at h1 h2 h3 hsym hst heq
      obtain ⟨b', d, p', w, hstep, hp', ts⟩ := tridiagStep_real i b off p hi h1 h2 h3
      refine wp_of_ok hstep ?_
      simp only
      have hdi : (off.upd i d).get i = d := by rw [Arr1.upd_get, if_pos rfl]
      have hdk : ∀ k, k < i → (off.upd i d).get k = off.get k := by
        intro k hk; rw [Arr1.upd_get, if_neg (by omega)]
      have hwd : ∀ r, r < n → w r = if i + 1 ≤ r then b'.get r i else 0 := ts.wdef
      have hsti : StoredOk n b' 1 (off.upd i d).get i := by
        unfold StoredOk
        rw [hdi]
        exact ts.ok.congr (by omega) hwd
      have hPi : storedP n b' 1 (off.upd i d).get i = house n (i + 1) (NdFloat.signum d) w := by
        unfold storedP
        rw [hdi]
        exact (house_congr hwd).symm
      refine ⟨⟨ts.shape, h2, hp'⟩, ?_, ?_, ?_⟩
      · intro r c hr hc h4 h5
        rw [ts.block r c hr hc h4 h5, ts.block c r hc hr h5 h4,
          hsym r c hr hc (by omega) (by omega)]
        ring
      · intro k hk
        by_cases hki : k = i
        · subst hki; exact hsti
        · exact storedOk_congr (hst k (by omega)) (fun r => ts.frame r k (Or.inl (by omega)))
            (hdk k (by omega))
      · rw [prodP, prodP_congr fun k hk =>
          storedP_congr (fun r => ts.frame r k (Or.inl hk)) (hdk k hk), hPi, heq]
        have hconj := triStep_conj (e := off.get) hi ts hsym
        have hoff : (off.upd i d).get = fun k => if k = i then d else off.get k := by
          funext k; rw [Arr1.upd_get]
        rw [hoff, ← hconj, Matrix.transpose_mul, house_symm ts.ok]
        simp only [Matrix.mul_assoc]
        rw [house_mul_cancel ts.ok, ← Matrix.mul_assoc (house n (i + 1) _ w) (house n (i + 1) _ w),
          house_mul_self ts.ok, Matrix.one_mul]
    · rintro ⟨b, off, p⟩ ⟨⟨h1, h2, h3⟩, hsym, hst, heq⟩
      exact ⟨⟨h1.1, h1.2, h2⟩, hst, heq⟩
  obtain ⟨⟨b, off, p⟩, h, hok⟩ := succeeds_iff.1 hw
  refine ⟨⟨b, off⟩, ?_, hok⟩
  unfold symTridiagonal
  rw [checkSquare_ok (by rw [ha.1, ha.2])]
  simp only [ok_bind]
  rw [ha.1, if_neg (by omega), h]
  rfl

/-- The tridiagonal matrix with diagonal `d` and off-diagonal `e`. -/
def tridiag (n : Nat) (d e : Nat → ℝ) : Matrix (Fin n) (Fin n) ℝ :=
  Matrix.of fun r c => if (r : Nat) = c then d r else if (r : Nat) = c + 1 then e c
    else if (c : Nat) = r + 1 then e r else 0

theorem TriOk.final {n : Nat} {a : Arr2 ℝ} {t : TridiagonalDecomp ℝ} (h : TriOk n a t)
    (hn : 1 ≤ n) :
    ∃ Q, t.generateQ = .ok Q ∧ HasShape Q n n ∧ (toMat n n Q)ᵀ * toMat n n Q = 1 ∧
      toMat n n Q * tridiag n (fun i => t.diagMatrix.get i i) (fun i => |t.offDiagonal.get i|) *
        (toMat n n Q)ᵀ = toMat n n a := by
  have hm : min t.diagMatrix.nr t.diagMatrix.nc = n := by rw [h.nr, h.nc, min_self]
  obtain ⟨Q, h1, h2, h3⟩ := assembleQ_real t.diagMatrix 1 (fun i => t.offDiagonal.idx i)
    t.offDiagonal.get (by rw [hm]; exact hn)
    (fun i hi => Arr1.idx_ok (by rw [h.len]; rw [hm] at hi; exact hi))
    (fun i hi => by rw [h.nr]; exact h.stored i (by rw [hm] at hi; exact hi))
  rw [hm, h.nr] at h2
  have h3 : toMat n n Q = prodP (storedP n t.diagMatrix 1 t.offDiagonal.get) (n - 1) := by
    have er := h.nr
    have e := hm
    generalize t.diagMatrix.nr = m' at *
    subst er
    generalize min m' t.diagMatrix.nc = n' at *
    subst e
    rw [h3]
    have : eyeMat n' n' = 1 := by
      ext i j; simp [eyeMat, Matrix.one_apply, Fin.ext_iff]
    rw [this, Matrix.mul_one]
  have hT : (Matrix.of fun (r c : Fin n) => triPartial (n - 1) t.diagMatrix t.offDiagonal.get r c) =
      tridiag n (fun i => t.diagMatrix.get i i) (fun i => |t.offDiagonal.get i|) := by
    ext r c
    simp only [Matrix.of_apply, triPartial, tridiag]
    by_cases hrc : n - 1 ≤ (r : Nat) ∧ n - 1 ≤ (c : Nat)
    · have : (r : Nat) = c := by omega
      rw [if_pos hrc, if_pos this, this]
    · rw [if_neg hrc]
  refine ⟨Q, h1, h2, ?_, ?_⟩
  · rw [h3]; exact prodP_orth fun k hk => storedP_orth (h.stored k hk)
  · rw [h3, ← hT]; exact h.eq.symm

end LinfaLinalg
