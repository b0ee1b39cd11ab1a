import Verif.Props.TruncatedSvd
import Verif.Props.Lobpcg
import Verif.Props.Precision
import Verif.Proofs.FloatOne

/-! # C128: the values and vectors of the truncated singular value decomposition in floating point -/

set_option linter.unusedSectionVars false

namespace LinfaLinalg

open Flt

variable {F : Format}

/-- Values that are positive finite floats in descending order, each the rounded square root of a positive entry of
`l`. -/
structure PositiveRoots (F : Format) (l s : Arr1 (Flt (Rounding.ieee F))) : Prop where
  root : ∀ j < s.len, ∃ m x i, s.get j = fin false m ∧ 0 < m ∧ i < l.len ∧ l.get i = fin false x ∧ 0 < x ∧
    |m - Real.sqrt x| ≤ 2 ^ (-(F.mant : ℤ)) * Real.sqrt x
  sorted : ∀ i j, i ≤ j → j < s.len → NdFloat.le (s.get j) (s.get i) = true

/-- The square root of a positive number of the format is a positive finite number, accurate to the last place. -/
theorem sqrt_positive (hF : F.emin + 2 * F.mant ≤ 0) {x : ℝ} (hx : IsMag F x) (h0 : 0 < x) :
    ∃ m, (NdFloat.sqrt (fin false x) : Flt (Rounding.ieee F)) = fin false m ∧ F.round (Real.sqrt x) = some m ∧ 0 < m ∧
      |m - Real.sqrt x| ≤ 2 ^ (-(F.mant : ℤ)) * Real.sqrt x := by
  have hs0 : 0 < Real.sqrt x := Real.sqrt_pos.2 h0
  have hlo : (2 : ℝ) ^ F.emin ≤ x := by
    obtain ⟨k, e, h1, h2, h3, rfl⟩ := hx
    have hk : 1 ≤ k := by
      rcases Nat.eq_zero_or_pos k with rfl | h
      · simp at h0
      · exact h
    calc (2 : ℝ) ^ F.emin ≤ 2 ^ e := zpow_le_zpow_right₀ (by norm_num) h2
      _ = 1 * 2 ^ e := (one_mul _).symm
      _ ≤ k * 2 ^ e := mul_le_mul_of_nonneg_right (by exact_mod_cast hk) (by positivity)
  have hnorm : (2 : ℝ) ^ (F.emin + F.mant) ≤ Real.sqrt x := by
    apply Real.le_sqrt_of_sq_le
    refine le_trans ?_ hlo
    rw [← zpow_natCast, ← zpow_mul]
    exact zpow_le_zpow_right₀ (by norm_num) (by push_cast; omega)
  obtain ⟨m, hm⟩ : ∃ m, F.round (Real.sqrt x) = some m := by
    rcases le_or_gt x 1 with h | h
    · obtain ⟨y, hy, -⟩ := Format.round_le hs0.le isMag_one (Real.sqrt_le_one.2 h)
      exact ⟨y, hy⟩
    · obtain ⟨y, hy, -⟩ := Format.round_le hs0.le hx (Real.sqrt_le_iff.2 ⟨h0.le, by nlinarith⟩)
      exact ⟨y, hy⟩
  have hacc : |m - Real.sqrt x| ≤ 2 ^ (-(F.mant : ℤ)) * Real.sqrt x := by
    have := Format.round_normal hnorm hm
    rwa [show (2 : ℝ) * 2 ^ (-(F.mant : ℤ) - 1) = 2 ^ (-(F.mant : ℤ)) by
      rw [zpow_sub₀ (by norm_num)]; ring] at this
  refine ⟨m, ?_, hm, ?_, hacc⟩
  · show Flt.sqrt _ = _
    simp only [Flt.sqrt, Flt.round, if_neg h0.ne', Bool.false_eq_true, if_false]
    rw [show (Rounding.ieee F).rnd (Real.sqrt x) = some m from hm]
  · have h2 : (2 : ℝ) ^ (-(F.mant : ℤ)) ≤ 1 / 2 := by
      calc (2 : ℝ) ^ (-(F.mant : ℤ)) ≤ 2 ^ (-1 : ℤ) := zpow_le_zpow_right₀ (by norm_num) (by have := F.mant_pos; omega)
        _ = 1 / 2 := by norm_num
    have := (abs_le.1 hacc).1
    nlinarith

variable [MagnitudeCorrection (Flt (Rounding.ieee F))]

/-- The correction `c` is a positive number of the format of at most the inverse of the machine epsilon: `1e3` in `f32`, `1e6`
in `f64`, `/repo/src/lobpcg/svd.rs:249-263`. -/
structure ModerateCorrection (F : Format) [MagnitudeCorrection (Flt (Rounding.ieee F))] (c : ℝ) : Prop where
  eq : (MagnitudeCorrection.correction : Flt (Rounding.ieee F)) = fin false c
  pos : 0 < c
  le : c ≤ 2 ^ F.mant

theorem ModerateCorrection.cutoff {c : ℝ} (hc : ModerateCorrection F c) :
    ∃ w, (NdFloat.epsilon * MagnitudeCorrection.correction : Flt (Rounding.ieee F)) = fin false w ∧ 0 ≤ w ∧ w ≤ 1 := by
  have h : (2 : ℝ)⁻¹ ^ F.mant * c ≤ 1 := by
    rw [inv_pow, inv_mul_le_iff₀ (by positivity), mul_one]
    exact hc.le
  obtain ⟨w, hw, hw1⟩ := Format.round_le (x := (2 : ℝ)⁻¹ ^ F.mant * c) (mul_nonneg (by positivity) hc.pos.le) isMag_one h
  refine ⟨w, ?_, F.round_nonneg hw, hw1⟩
  rw [hc.eq]
  show Flt.mul (fin false ((2 : ℝ)⁻¹ ^ F.mant)) (fin false c) = _
  simp only [Flt.mul, Flt.round]
  rw [show (Rounding.ieee F).rnd ((2 : ℝ)⁻¹ ^ F.mant * c) = some w from hw]
  rfl

/-- What exceeds the cut-off is a positive finite number, if nothing exceeds `top`. -/
theorem above_cutoff {w : ℝ} (h0 : 0 ≤ w) (h1 : w ≤ 1) {top q : Flt (Rounding.ieee F)} (htop : IsFloat F top)
    (hq : IsFloat F q) (hle : NdFloat.le q top = true) (hlt : NdFloat.lt (fin false w * top) q = true) : ∃ x, q = fin false x ∧ 0 < x := by
  have hle : Flt.le q top = true := hle
  have hlt : Flt.lt (Flt.mul (fin false w) top) q = true := hlt
  cases top with
  | nan => simp [Flt.mul, Flt.lt] at hlt
  | inf s =>
    unfold Flt.mul at hlt
    simp only at hlt
    split_ifs at hlt
    · simp [Flt.lt] at hlt
    · cases s <;> rcases q with _ | r | ⟨r, x⟩ <;> (try cases r) <;> simp_all [Flt.lt, Flt.le]
  | fin s m =>
    have hm : 0 ≤ m := IsMag.nonneg htop
    obtain ⟨y, hy, hym⟩ := Format.round_le (mul_nonneg h0 hm) htop (by nlinarith : w * m ≤ m)
    have hy0 := F.round_nonneg hy
    have e : (Flt.mul (fin false w) (fin s m) : Flt (Rounding.ieee F)) = fin s y := by
      simp only [Flt.mul, Flt.round]
      rw [show (Rounding.ieee F).rnd (w * m) = some y from hy]
      cases s <;> rfl
    rw [e] at hlt
    rcases q with _ | r | ⟨r, x⟩
    · simp [Flt.le] at hle
    · cases r <;> simp_all [Flt.lt, Flt.le]
    · have hx : 0 ≤ x := IsMag.nonneg hq
      simp only [Flt.le, Flt.lt, decide_eq_true_eq] at hle hlt
      cases s <;> cases r <;> simp [Flt.val, Flt.sgn] at hle hlt
      · exact ⟨x, rfl, by linarith⟩
      · linarith
      · linarith
      · linarith

theorem roundEven_mono {x y : ℝ} (h : x ≤ y) : roundEven x ≤ roundEven y := by
  have hf : ⌊x⌋ ≤ ⌊y⌋ := Int.floor_mono h
  have up : roundEven x ≤ ⌊x⌋ + 1 := by unfold roundEven; split_ifs <;> omega
  have dn : ⌊y⌋ ≤ roundEven y := by unfold roundEven; split_ifs <;> omega
  rcases hf.lt_or_eq with h1 | h1
  · omega
  · have hfr : Int.fract x ≤ Int.fract y := by
      unfold Int.fract
      rw [h1]
      linarith
    unfold roundEven
    rw [h1]
    split_ifs <;> first | omega | (exfalso; linarith)

/-- Rounding to a format is monotone. -/
theorem Format.round_mono {x y y' : ℝ} (h0 : 0 ≤ x) (h : x ≤ y) (hy : F.round y = some y') :
    ∃ x', F.round x = some x' ∧ x' ≤ y' := by
  rcases h0.eq_or_lt with rfl | hx
  · exact ⟨0, Format.round_zero, F.round_nonneg hy⟩
  have hy0 := hx.trans_le h
  have hlt : y < 2 ^ F.emax := by
    by_contra hn
    rw [Format.round_huge (not_lt.1 hn)] at hy
    cases hy
  rcases (F.exp_mono hx h).lt_or_eq with he | he
  · have e1 : F.exp y = Int.log 2 y - F.mant := by
      rcases max_choice (Int.log 2 y - F.mant) F.emin with h | h
      · exact h
      · have h1 : F.exp y = F.emin := h
        have h2 : F.emin ≤ F.exp x := le_max_right _ _
        omega
    have h2 : F.emin ≤ F.exp x := le_max_right _ _
    have h3 : Int.log 2 x - F.mant ≤ F.exp x := le_max_left _ _
    have hmax : Int.log 2 y < F.emax := by
      rw [← Int.lt_zpow_iff_log_lt (by norm_num) hy0]
      exact_mod_cast hlt
    have hm : IsMag F ((2 : ℝ) ^ Int.log 2 y) := by
      refine ⟨2 ^ F.mant, Int.log 2 y - F.mant, Nat.pow_lt_pow_right (by norm_num) (by omega), by omega, by omega, ?_⟩
      rw [zpow_sub₀ (by norm_num), zpow_natCast]
      push_cast
      field_simp
    have hx2 : x ≤ 2 ^ Int.log 2 y := by
      have := (Int.lt_zpow_iff_log_lt (b := 2) (by norm_num) hx).2 (show Int.log 2 x < Int.log 2 y by omega)
      exact (by exact_mod_cast this : x < (2 : ℝ) ^ Int.log 2 y).le
    have hy2 : (2 : ℝ) ^ Int.log 2 y ≤ y := by
      have := Int.zpow_log_le_self (b := 2) (by norm_num) hy0
      exact_mod_cast this
    obtain ⟨x', hx', hle⟩ := Format.round_le hx.le hm hx2
    exact ⟨x', hx', hle.trans (Format.le_round hm hy2 hy)⟩
  · have hp := two_zpow_pos (F.exp y)
    have hr := roundEven_mono (div_le_div_of_nonneg_right h hp.le)
    have hr0 : 0 ≤ roundEven (x / 2 ^ F.exp y) := roundEven_ge_nat (k := 0) (by push_cast; positivity)
    have hle : |(roundEven (x / (2 : ℝ) ^ F.exp y) : ℝ) * (2 : ℝ) ^ F.exp y| ≤
        |(roundEven (y / (2 : ℝ) ^ F.exp y) : ℝ) * (2 : ℝ) ^ F.exp y| := by
      rw [abs_of_nonneg (mul_nonneg (by exact_mod_cast hr0) hp.le),
        abs_of_nonneg (mul_nonneg (by exact_mod_cast hr0.trans hr) hp.le)]
      exact mul_le_mul_of_nonneg_right (by exact_mod_cast hr) hp.le
    unfold Format.round at hy ⊢
    dsimp only at hy ⊢
    rw [he]
    split_ifs at hy with h1
    cases hy
    rw [if_pos (hle.trans_lt h1)]
    exact ⟨_, rfl, hle⟩

/-- The square root of floats is monotone. -/
theorem sqrt_le_sqrt {x y : ℝ} (hF : F.emin + 2 * F.mant ≤ 0) (hx : IsMag F x) (hy : IsMag F y) (hx0 : 0 < x)
    (hxy : x ≤ y) : NdFloat.le (NdFloat.sqrt (fin false x) : Flt (Rounding.ieee F)) (NdFloat.sqrt (fin false y)) = true := by
  obtain ⟨m, h1, h2, -⟩ := sqrt_positive hF hx hx0
  obtain ⟨m', h1', h2', -⟩ := sqrt_positive hF hy (hx0.trans_le hxy)
  rw [h1, h1']
  obtain ⟨z, hz, hzm⟩ := Format.round_mono (Real.sqrt_nonneg x) (Real.sqrt_le_sqrt hxy) h2'
  rw [h2] at hz
  cases hz
  show Flt.le _ _ = true
  simpa [Flt.le, Flt.val, Flt.sgn] using hzm

/-- **C128**, `Order::Largest`: whatever floats the solver returned as eigenvalues, infinities and negative numbers among
them, the values are positive finite numbers in descending order, each of them the square root of an eigenvalue up to
one unit in the last place. -/
theorem C128_largest (hF : F.emin + 2 * F.mant ≤ 0) {c : ℝ} (hc : ModerateCorrection F c)
    (t : TruncatedSvdResult (Flt (Rounding.ieee F))) (ho : t.order = .largest) (hne : 0 < t.eigvals.len)
    (hfl : All1 (IsFloat F) t.eigvals) (hnan : ∀ i < t.eigvals.len, t.eigvals.get i ≠ .nan) :
    ∃ s, t.values = .ok s ∧ PositiveRoots F t.eigvals s ∧
      ((∃ i < t.eigvals.len, t.eigvals.get i = .inf false) → s.len = 0) := by
  have hN : NaNFree t.eigvals := by
    intro i hi
    have := hnan i hi
    show Flt.le _ _ = true
    cases h : t.eigvals.get i with
    | nan => exact absurd h this
    | inf s => cases s <;> rfl
    | fin s m => simp [Flt.le]
  obtain ⟨top, idx, htop, hmax, hs, -, hv⟩ := C54_largest t ho hN hne
  obtain ⟨w, hw, hw0, hw1⟩ := hc.cutoff
  rw [hw] at hs
  have hpos : ∀ i ∈ idx, ∃ x, t.eigvals.get i = fin false x ∧ 0 < x := by
    intro i hi
    obtain ⟨hil, hk⟩ := (hs.mem i).1 hi
    exact above_cutoff hw0 hw1 (hfl top htop) (hfl i hil) (hmax i hil) hk
  have hget : ∀ j (hj : j < idx.length),
      (idx.map fun i => NdFloat.sqrt (t.eigvals.get i)).getD j 0 = NdFloat.sqrt (t.eigvals.get idx[j]) := by
    intro j hj
    rw [List.getD_eq_getElem?_getD, List.getElem?_eq_getElem (by simpa using hj)]
    simp
  refine ⟨_, hv, ⟨?_, ?_⟩, ?_⟩
  · intro j hj
    replace hj : j < idx.length := hj
    show ∃ m x i, (idx.map fun i => NdFloat.sqrt (t.eigvals.get i)).getD j 0 = fin false m ∧ _
    rw [hget j hj]
    obtain ⟨x, hx, hx0⟩ := hpos _ (List.getElem_mem hj)
    have hil := ((hs.mem _).1 (List.getElem_mem hj)).1
    have hxm : IsMag F x := by have := hfl _ hil; rwa [hx] at this
    obtain ⟨m, h1, -, h2, h3⟩ := sqrt_positive hF hxm hx0
    exact ⟨m, x, idx[j], by rw [hx, h1], h2, hil, hx, hx0, h3⟩
  · intro i j hij hj
    replace hj : j < idx.length := hj
    have hi : i < idx.length := hij.trans_lt hj
    show NdFloat.le ((idx.map fun i => NdFloat.sqrt (t.eigvals.get i)).getD j 0)
      ((idx.map fun i => NdFloat.sqrt (t.eigvals.get i)).getD i 0) = true
    rw [hget i hi, hget j hj]
    obtain ⟨x, hx, hx0⟩ := hpos _ (List.getElem_mem hi)
    obtain ⟨y, hy, hy0⟩ := hpos _ (List.getElem_mem hj)
    have hxm : IsMag F x := by have := hfl _ ((hs.mem _).1 (List.getElem_mem hi)).1; rwa [hx] at this
    have hym : IsMag F y := by have := hfl _ ((hs.mem _).1 (List.getElem_mem hj)).1; rwa [hy] at this
    have hle : y ≤ x := by
      rcases hij.eq_or_lt with rfl | hlt
      · rw [hx] at hy
        cases hy
        exact le_rfl
      · have := (List.pairwise_iff_getElem.1 hs.sorted i j hi hj hlt).1
        rw [hx, hy] at this
        have this : Flt.le (fin false y) (fin false x) = true := this
        simpa [Flt.le, Flt.val, Flt.sgn] using this
    rw [hx, hy]
    exact sqrt_le_sqrt hF hym hxm hy0 hle
  · rintro ⟨i, hi, hinf⟩
    have htopi : t.eigvals.get top = .inf false := by
      have := hmax i hi
      rw [hinf] at this
      have this : Flt.le (.inf false) (t.eigvals.get top) = true := this
      cases h : t.eigvals.get top with
      | nan => rw [h] at this; simp [Flt.le] at this
      | inf s => rw [h] at this; cases s <;> simp_all [Flt.le]
      | fin s m => rw [h] at this; simp [Flt.le] at this
    show idx.length = 0
    by_contra hne
    have hmem := List.getElem_mem (Nat.pos_of_ne_zero hne)
    obtain ⟨x, hx, hx0⟩ := hpos _ hmem
    have hk := ((hs.mem _).1 hmem).2
    rw [hx, htopi] at hk
    have hk : Flt.lt (Flt.mul (fin false w) (.inf false)) (fin false x) = true := hk
    unfold Flt.mul at hk
    simp only at hk
    split_ifs at hk <;> simp [Flt.lt] at hk

/-- A quotient by zero is not finite. -/
theorem div_zero_ne (x : Flt (Rounding.ieee F)) (z : Bool) (s : Bool) (m : ℝ) : x / fin z 0 ≠ fin s m := by
  show Flt.div _ _ ≠ _
  cases x with
  | nan => simp [Flt.div]
  | inf t => simp [Flt.div]
  | fin t n => unfold Flt.div; simp only [if_true]; split_ifs <;> simp

/-- The column of a quotient by zero or by a `NaN`: no entry is finite. -/
def NoFinite (F : Format) (f : Nat → Flt (Rounding.ieee F)) (n : Nat) : Prop := ∀ i < n, ∀ s m, f i ≠ fin s m

/-- **C128**, `Order::Smallest`: nothing is dropped here, so the eigenvalue zero of a matrix without full rank gives the
value zero and a vector without a single finite entry (the division by the value). A negative eigenvalue, which
rounding errors make of it, gives the value `NaN` and a vector of `NaN`s. The vectors are the left ones for matrices
with more rows than columns, otherwise the right ones. There is no error. -/
theorem C128_smallest {n m q k : Nat} (t : TruncatedSvdResult (Flt (Rounding.ieee F))) (ho : t.order = .smallest)
    (hp : HasShape t.problem n m) (hngm : t.ngm = decide (n > m)) (hq : q = min n m) (hl : t.eigvals.len = k)
    (he : HasShape t.eigvecs q k) (hnan : ∀ i < k, t.eigvals.get i ≠ .nan) :
    ∃ (idx : List Nat) (u : Arr2 (Flt (Rounding.ieee F))) (s : Arr1 (Flt (Rounding.ieee F)))
      (vt : Arr2 (Flt (Rounding.ieee F))), t.valuesVectors = .ok (u, s, vt) ∧ t.values = .ok s ∧ s.len = k ∧
      HasShape u n k ∧ HasShape vt k m ∧ idx.Perm (List.range k) ∧
      ∀ j (hj : j < idx.length),
        ((∃ z, t.eigvals.get idx[j] = fin z 0) → (∃ z, s.get j = fin z 0) ∧
          if n > m then NoFinite F (fun i => u.get i j) n else NoFinite F (fun i => vt.get j i) m) ∧
        (t.eigvals.get idx[j] = .inf true ∨ (∃ x, 0 < x ∧ t.eigvals.get idx[j] = fin true x) → s.get j = .nan ∧
          if n > m then ∀ i < n, u.get i j = .nan else ∀ i < m, vt.get j i = .nan) := by
  have hN : NaNFree t.eigvals := by
    intro i hi
    have := hnan i (hl ▸ hi)
    show Flt.le _ _ = true
    cases h : t.eigvals.get i with
    | nan => exact absurd h this
    | inf s => cases s <;> rfl
    | fin s m => simp [Flt.le]
  obtain ⟨idx, hs, hvi, hv⟩ := C54_smallest t ho hN
  have hperm : idx.Perm (List.range k) := by
    refine (List.perm_ext_iff_of_nodup hs.nodup List.nodup_range).2 fun i => ?_
    rw [hs.mem, List.mem_range, hl]
    simp
  have hlen : idx.length = k := by rw [hperm.length_eq, List.length_range]
  have hall : ∀ i ∈ idx, i < k := fun i hi => List.mem_range.1 (hperm.mem_iff.1 hi)
  have hsel : ∀ (a : Arr2 (Flt (Rounding.ieee F))), a.nc = k → a.selectCols idx = .ok ⟨a.nr, idx.length, fun i j => a.get i (idx.getD j 0)⟩ := by
    intro a ha
    unfold Arr2.selectCols
    rw [if_pos]
    rw [List.all_eq_true]
    intro i hi
    simpa [ha] using hall i hi
  set s : Arr1 (Flt (Rounding.ieee F)) :=
    ⟨idx.length, fun j => (idx.map fun i => NdFloat.sqrt (t.eigvals.get i)).getD j 0⟩ with hsdef
  have hget : ∀ j (hj : j < idx.length), s.get j = NdFloat.sqrt (t.eigvals.get idx[j]) := by
    intro j hj
    show (idx.map fun i => NdFloat.sqrt (t.eigvals.get i)).getD j 0 = _
    rw [List.getD_eq_getElem?_getD, List.getElem?_eq_getElem (by simpa using hj)]
    simp
  have hvv : t.valuesVectors = (if t.ngm then do
        let vlarge ← t.eigvecs.selectCols idx
        let ularge ← t.problem.dot vlarge
        .ok (divideCols ularge s, s, vlarge.t)
      else do
        let ularge ← t.eigvecs.selectCols idx
        let vlarge ← t.problem.t.dot ularge
        .ok (ularge, s, (divideCols vlarge s).t)) := by
    unfold TruncatedSvdResult.valuesVectors
    rw [hvi, ok_bind]
    simp only [List.map_map, List.length_map]
    have e1 : (Prod.snd ∘ fun i => (NdFloat.sqrt (t.eigvals.get i), i)) = (id : Nat → Nat) := rfl
    rw [e1, List.map_id]
    rfl
  have hzero : ∀ j (hj : j < idx.length) (a : Arr2 (Flt (Rounding.ieee F))), (∃ z, t.eigvals.get idx[j] = fin z 0) →
      (∃ z, s.get j = fin z 0) ∧ ∀ i, ∀ z x, (divideCols a s).get i j ≠ fin z x := by
    rintro j hj a ⟨z, hz⟩
    have h1 : s.get j = fin z 0 := by
      rw [hget j hj, hz]
      show Flt.sqrt _ = _
      simp [Flt.sqrt]
    refine ⟨⟨z, h1⟩, fun i z x => ?_⟩
    show (if j < idx.length then a.get i j / s.get j else a.get i j) ≠ _
    rw [if_pos hj, h1]
    exact div_zero_ne _ _ _ _
  have hneg : ∀ j (hj : j < idx.length) (a : Arr2 (Flt (Rounding.ieee F))),
      t.eigvals.get idx[j] = .inf true ∨ (∃ x, 0 < x ∧ t.eigvals.get idx[j] = fin true x) →
      s.get j = .nan ∧ ∀ i, (divideCols a s).get i j = .nan := by
    intro j hj a h
    have h1 : s.get j = .nan := by
      rw [hget j hj]
      rcases h with h | ⟨x, hx, h⟩
      · rw [h]; rfl
      · rw [h]
        show Flt.sqrt _ = _
        simp [Flt.sqrt, hx.ne']
    refine ⟨h1, fun i => ?_⟩
    show (if j < idx.length then a.get i j / s.get j else a.get i j) = _
    rw [if_pos hj, h1]
    show Flt.div _ _ = _
    cases a.get i j <;> rfl
  rw [hvv, hngm, hsel t.eigvecs he.2]
  by_cases hnm : n > m
  · have hqm : q = m := by omega
    have hdot : t.problem.dot ⟨t.eigvecs.nr, idx.length, fun i j => t.eigvecs.get i (idx.getD j 0)⟩ =
        .ok ⟨t.problem.nr, idx.length, fun i j => dotTo t.problem.nc (t.problem.get i) fun l =>
          t.eigvecs.get l (idx.getD j 0)⟩ := by
      unfold Arr2.dot
      rw [if_pos (by rw [hp.2]; exact (he.1.trans hqm).symm)]
    simp only [decide_eq_true hnm, if_true, ok_bind, hdot]
    refine ⟨idx, _, s, _, rfl, hv, hlen, ⟨hp.1, hlen⟩, ⟨hlen, he.1.trans hqm⟩, hperm, fun j hj => ?_⟩
    rw [if_pos hnm, if_pos hnm]
    exact ⟨fun h => ⟨(hzero j hj (Arr2.zeros 0 0) h).1, fun i _ => (hzero j hj _ h).2 i⟩,
      fun h => ⟨(hneg j hj (Arr2.zeros 0 0) h).1, fun i _ => (hneg j hj _ h).2 i⟩⟩
  · have hqn : q = n := by omega
    have hdot : t.problem.t.dot ⟨t.eigvecs.nr, idx.length, fun i j => t.eigvecs.get i (idx.getD j 0)⟩ =
        .ok ⟨t.problem.nc, idx.length, fun i j => dotTo t.problem.nr (t.problem.t.get i) fun l =>
          t.eigvecs.get l (idx.getD j 0)⟩ := by
      unfold Arr2.dot
      exact if_pos (show t.problem.nr = t.eigvecs.nr by rw [hp.1]; exact (he.1.trans hqn).symm)
    simp only [decide_eq_false hnm, Bool.false_eq_true, if_false, ok_bind, hdot]
    refine ⟨idx, _, s, _, rfl, hv, hlen, ⟨he.1.trans hqn, hlen⟩, ⟨hlen, hp.2⟩, hperm, fun j hj => ?_⟩
    rw [if_neg hnm, if_neg hnm]
    exact ⟨fun h => ⟨(hzero j hj (Arr2.zeros 0 0) h).1, fun i _ => (hzero j hj _ h).2 i⟩,
      fun h => ⟨(hneg j hj (Arr2.zeros 0 0) h).1, fun i _ => (hneg j hj _ h).2 i⟩⟩

/-- `impl MagnitudeCorrection for f32`, `/repo/src/lobpcg/svd.rs:253-257`. -/
noncomputable instance correctionSingle : MagnitudeCorrection (Flt (Rounding.ieee .single)) := ⟨fin false 1000⟩

/-- `impl MagnitudeCorrection for f64`, `/repo/src/lobpcg/svd.rs:259-263`. -/
noncomputable instance correctionDouble : MagnitudeCorrection (Flt (Rounding.ieee .double)) := ⟨fin false 1000000⟩

/-- The corrections of the library are moderate, and the two formats have the range that `C128_largest` asks for. -/
theorem correction_moderate : ModerateCorrection .single 1000 ∧
    ModerateCorrection .double 1000000 ∧ Format.single.emin + 2 * Format.single.mant ≤ 0 ∧
    Format.double.emin + 2 * Format.double.mant ≤ 0 :=
  ⟨⟨rfl, by norm_num, by norm_num [Format.single]⟩, ⟨rfl, by norm_num, by norm_num [Format.double]⟩,
    by norm_num [Format.single], by norm_num [Format.double]⟩

/-- Eigenvalues with a negative one and a zero meet the hypotheses of `C128_largest` and of `C128_smallest`. -/
example :
    let t : Order → TruncatedSvdResult (Flt (Rounding.ieee .single)) := fun o =>
      ⟨⟨3, fun i => if i = 0 then fin true 1 else if i = 1 then fin false 1 else fin false 0⟩, Arr2.zeros 3 3, Arr2.zeros 4 3, o, true⟩
    (∃ s, (t .largest).values = .ok s ∧ PositiveRoots .single (t .largest).eigvals s) ∧
    ∃ u s vt j, (t .smallest).valuesVectors = .ok (u, s, vt) ∧ j < 3 ∧ ∀ i < 4, u.get i j = .nan := by
  intro t
  have hn : ∀ o, ∀ i < 3, (t o).eigvals.get i ≠ .nan := by
    intro o i _
    show (if i = 0 then fin true 1 else if i = 1 then fin false 1 else fin false 0 : Flt (Rounding.ieee .single)) ≠ .nan
    split_ifs <;> simp
  have hfl : ∀ o, All1 (IsFloat .single) (t o).eigvals := by
    intro o i _
    show IsFloat .single (if i = 0 then fin true 1 else if i = 1 then fin false 1 else fin false 0)
    split_ifs
    · exact isMag_one
    · exact isMag_one
    · exact isMag_zero
  obtain ⟨hc, -, hF, -⟩ := correction_moderate
  constructor
  · obtain ⟨s, h1, h2, -⟩ := C128_largest hF hc (t .largest) rfl (by norm_num [t]) (hfl _) (hn _)
    exact ⟨s, h1, h2⟩
  · obtain ⟨idx, u, s, vt, h1, -, -, -, -, hp, h⟩ := C128_smallest (n := 4) (m := 3) (k := 3) (t .smallest) rfl ⟨rfl, rfl⟩ rfl rfl rfl
      ⟨rfl, rfl⟩ (hn _)
    obtain ⟨j, hj, h0⟩ := List.mem_iff_getElem.1 (hp.mem_iff.2 (List.mem_range.2 (show 0 < 3 by omega)))
    refine ⟨u, s, vt, j, h1, by rw [hp.length_eq, List.length_range] at hj; exact hj, ?_⟩
    have := ((h j hj).2 (Or.inr ⟨1, one_pos, by rw [h0]; rfl⟩)).2
    rwa [if_pos (by norm_num)] at this

/-- **C128**, a case in which this happens: `TruncatedSvd::new(zero 1 × 1 matrix, Order::Smallest)` in any format, with any
precision and any number of iterations, from the start 1: `decompose(1)` is a success, and `values_vectors` returns the value 0 with
the right vector `NaN`, without an error. -/
theorem C128_zero_matrix {ρ : Type} (fuel : Nat) (S : RandomSource (Flt (Rounding.ieee F)) ρ)
    (hS : ∀ st, (S.gen 1 1 st).1 0 0 = 1) (t : TruncatedSvd (Flt (Rounding.ieee F)) ρ) (ho : t.order = .smallest)
    (hp : t.problem = Arr2.zeros 1 1) :
    ∃ out u s vt, t.decompose (eighInto fuel) S 1 = .ok out ∧ out.valuesVectors = .ok (u, s, vt) ∧
      s.len = 1 ∧ s.get 0 = 0 ∧ HasShape vt 1 1 ∧ vt.get 0 0 = .nan := by
  obtain ⟨⟨⟨ln, lg⟩, ⟨vn, vc, vg⟩, rn⟩, hist, hr, e1, e2, e3, e4, e5⟩ := f_run fuel t.maxiter t.params rfl (fun c g hg => by
    simp only [TruncatedSvd.params, hp]
    refine ⟨_, rfl, rfl, rfl, ?_⟩
    show dotTo 1 (fun _ => (0 : Flt (Rounding.ieee F))) (fun _ => dotTo 1 (fun _ => 0) (fun k => g k 0)) = 0
    simp only [f_dot, hg, f_zero_mul_one, f_zero_add_zero, f_zero_mul_zero]) (f_sq_not_neg t.precision)
    (S.gen 1 1 t.rng).1 (hS _)
  simp only at e1 e2 e3 e4 e5
  subst e1 e3 e4
  have hd : t.decompose (eighInto fuel) S 1 = .ok ⟨⟨1, lg⟩, ⟨1, 1, vg⟩, t.problem, t.order, false⟩ := by
    unfold TruncatedSvd.decompose
    rw [if_neg (by omega), hp]
    simp only [RandomSource.random, show min (Arr2.zeros 1 1 : Arr2 (Flt (Rounding.ieee F))).nr (Arr2.zeros 1 1 : Arr2 (Flt (Rounding.ieee F))).nc = 1 from rfl]
    rw [hr, ok_bind]
    rfl
  rw [ho, hp] at hd
  refine ⟨_, _, _, _, hd, rfl, rfl, ?_, ⟨rfl, rfl⟩, ?_⟩
  · show NdFloat.sqrt (lg 0) = 0
    rw [e2, f_sqrt_zero]
  · show dotTo 1 (fun _ => (0 : Flt (Rounding.ieee F))) (fun k => vg k 0) / NdFloat.sqrt (lg 0) = .nan
    rw [f_dot, e5, f_zero_mul_one, f_zero_add_zero, e2, f_sqrt_zero, f_zero_div_zero]

end LinfaLinalg
