import Verif.Proofs.EighFloat
import Verif.Proofs.NaNSvd
import Verif.Proofs.Qr
set_option linter.unusedSimpArgs false
set_option linter.unusedSectionVars false
/-! # Reflections with a tiny axis, in IEEE double precision with gradual underflow -/

namespace LinfaLinalg

/-! ## Evaluating `b64Round` -/

/-- Numbers with at most 53 digits above the smallest subnormal are not rounded. -/
theorem b64_exact {x y : ℝ} (k e : ℤ) (hk : |k| < 2 ^ 53) (he : -1074 ≤ e) (he' : e ≤ 900) (hx : x = k * 2 ^ e)
    (h0 : 0 < x) (hy : y = x) : b64Round x = some y := by
  rw [hy]
  have hlog : Int.log 2 x < 53 + e := by
    rw [← Int.lt_zpow_iff_log_lt (by norm_num) h0, hx]
    rw [show (((2 : ℕ) : ℝ)) = 2 by norm_num, zpow_add₀ (by norm_num)]
    refine mul_lt_mul_of_pos_right ?_ (by positivity)
    exact_mod_cast lt_of_le_of_lt (le_abs_self k) hk
  have hle : b64Exp x ≤ e := max_le (by omega) he
  obtain ⟨n, hn⟩ := Int.le.dest hle
  unfold b64Round
  dsimp only
  set e' := b64Exp x with he'
  have h2 : x / 2 ^ e' = ((k * 2 ^ n : ℤ) : ℝ) := by
    rw [hx, ← hn, zpow_add₀ (by norm_num)]
    push_cast
    rw [zpow_natCast]
    field_simp
  have h3 : |((roundEven (x / 2 ^ e') : ℤ) : ℝ) * 2 ^ e'| = x := by
    rw [h2, roundEven_int, ← h2, div_mul_cancel₀ _ (by positivity), abs_of_pos h0]
  rw [h3, if_pos]
  have hb := (Int.lt_zpow_iff_log_lt (b := 2) (by norm_num) h0 (x := 53 + e)).2 hlog
  refine lt_of_lt_of_le hb ?_
  rw [show (((2 : ℕ) : ℝ)) = 2 by norm_num]
  exact zpow_le_zpow_right₀ (by norm_num) (by omega)

/-- Numbers between half and three halves of the smallest subnormal are rounded to it. -/
theorem b64_tiny {x : ℝ} (h1 : 1 / 2 * (2 : ℝ) ^ (-1074 : ℤ) < x) (h2 : x < 3 / 2 * (2 : ℝ) ^ (-1074 : ℤ)) :
    b64Round x = some ((2 : ℝ) ^ (-1074 : ℤ)) := by
  have hg : (0 : ℝ) < 2 ^ (-1074 : ℤ) := by positivity
  have h0 : 0 < x := by linarith
  have hlog : Int.log 2 x < -1073 := by
    rw [← Int.lt_zpow_iff_log_lt (by norm_num) h0, show (((2 : ℕ) : ℝ)) = 2 by norm_num]
    rw [show (-1073 : ℤ) = -1074 + 1 by norm_num, zpow_add₀ (by norm_num)]
    linarith
  have he : b64Exp x = -1074 := max_eq_right (by omega)
  have hr : roundEven (x / 2 ^ (-1074 : ℤ)) = 1 := by
    refine roundEven_near (Or.inl ?_)
    rw [abs_lt]
    constructor
    · rw [neg_lt_sub_iff_lt_add, ← sub_lt_iff_lt_add', lt_div_iff₀ hg]; push_cast; linarith
    · rw [sub_lt_iff_lt_add, div_lt_iff₀ hg]; push_cast; linarith
  unfold b64Round
  dsimp only
  rw [he, hr, Int.cast_one, one_mul, abs_of_pos hg, if_pos (zpow_lt_zpow_right₀ (by norm_num) (by norm_num))]

local notation "𝔽" => Flt Rounding.binary64

namespace Flt

theorem b64_mul {s t r : Bool} {m n k : ℝ} (h : b64Round (m * n) = some k) (hs : (s != t) = r) :
    (fin s m * fin t n : 𝔽) = fin r k := by
  subst hs
  show mul _ _ = _
  rw [mul, round]
  simp [Rounding.binary64, h]

theorem b64_div {s t r : Bool} {m n k : ℝ} (hn : n ≠ 0) (h : b64Round (m / n) = some k) (hs : (s != t) = r) :
    (fin s m / fin t n : 𝔽) = fin r k := by
  subst hs
  show div _ _ = _
  rw [div, if_neg hn, round]
  simp [Rounding.binary64, h]

theorem b64_ofReal {z r : Bool} {x k : ℝ} (h : b64Round k = some k) (hk : 0 < k) (he : x = val r k) :
    (ofReal z x : 𝔽) = fin r k := by
  subst he
  cases r
  · simp only [val, sgn, Bool.false_eq_true, if_false, one_mul]
    rw [ofReal, if_neg hk.ne', round, abs_of_pos hk]
    simp [Rounding.binary64, h, hk.le]
  · simp only [val, sgn, if_true, neg_one_mul]
    rw [ofReal, if_neg (by linarith), round, abs_of_neg (by linarith), neg_neg]
    simp [Rounding.binary64, h, hk]

theorem b64_add {s t r : Bool} {m n k : ℝ} (h : b64Round k = some k) (hk : 0 < k) (he : val s m + val t n = val r k) :
    (fin s m + fin t n : 𝔽) = fin r k := by
  show add _ _ = _
  rw [add]
  exact b64_ofReal h hk he

theorem b64_sub {s t r : Bool} {m n k : ℝ} (h : b64Round k = some k) (hk : 0 < k) (he : val s m - val t n = val r k) :
    (fin s m - fin t n : 𝔽) = fin r k := by
  rw [sub_def, neg, add]
  refine b64_ofReal h hk (he ▸ ?_)
  cases t <;> simp [val, sgn, sub_eq_add_neg]

theorem b64_sqrt {m k : ℝ} (h : b64Round k = some k) (hk : 0 < k) (he : m = k * k) :
    (NdFloat.sqrt (fin false m) : 𝔽) = fin false k := by
  show sqrt _ = _
  rw [sqrt, if_neg (by rw [he]; positivity), if_neg (by simp), round, he, Real.sqrt_mul_self hk.le]
  simp [Rounding.binary64, h]

theorem b64_zero_add (m : 𝔽) (h : ∀ s k, m = fin s k → b64Round k = some k ∧ 0 < k) : 0 + m = m := by
  cases m with
  | nan => rfl
  | inf s => rfl
  | fin s k =>
    obtain ⟨h1, h2⟩ := h s k rfl
    exact b64_add h1 h2 (by simp [val])

theorem b64_two : (NdFloat.ofRat 2 : 𝔽) = fin false 2 :=
  b64_ofReal (b64_exact 2 0 (by norm_num) (by norm_num) (by norm_num) (by norm_num) (by norm_num) rfl) (by norm_num)
    (by simp [val, sgn])

theorem b64_neg_two : (NdFloat.ofRat (-2) : 𝔽) = fin true 2 :=
  b64_ofReal (b64_exact 2 0 (by norm_num) (by norm_num) (by norm_num) (by norm_num) (by norm_num) rfl) (by norm_num)
    (by simp [val, sgn])

end Flt

/-- `unrolled_dot` on one pair. -/
theorem b64_dot_one (f g : Nat → 𝔽) : dotTo 1 f g = 0 + f 0 * g 0 := by
  have p1 : DotPlans.unrolled.plan 1 = .add (.fold8 0) (.prod 0) := rfl
  have h0 : (Flt.fin false 0 : 𝔽).add (.fin false 0) = .fin false 0 := by
    simp [Flt.add, Flt.val, Flt.ofReal]
  show (DotPlans.unrolled.plan 1).eval (Flt.fin false 0 : 𝔽) Flt.add Flt.mul Flt.fma [(f 0, g 0)] = _
  rw [p1]
  simp [DotPlan.fold8, DotPlan.acc, DotPlan.seq, DotPlan.eval, h0]
  rfl

/-! ## The reductions on one-element columns, the results of the operations being given -/

section
variable {α : Type} [Zero α] [One α] [Add α] [Sub α] [Mul α] [Div α] [Neg α] [NdFloat α]
  (hD : ∀ f g : Nat → α, dotTo 1 f g = 0 + f 0 * g 0)
include hD

/-- `reflection_axis_mut` of one element. -/
theorem axis1 (c : Arr1 α) (hc : c.len = 1) {x nsq n sn f z r v : α} (hx : c.get 0 = x) (a1 : 0 + x * x = nsq)
    (a2 : NdFloat.sqrt nsq = n) (a3 : NdFloat.signum x * n = sn) (a4 : x + sn = f)
    (a5 : (nsq + NdFloat.abs x * n) * NdFloat.ofRat 2 = z) (a6 : NdFloat.isZero z = false) (a7 : NdFloat.sqrt z = r)
    (a8 : f / r = v) :
    ∃ c', reflectionAxisMut c = .ok (c', some (-sn)) ∧ c'.len = 1 ∧ c'.get 0 = v := by
  unfold reflectionAxisMut
  simp [Arr1.dot, ok_bind, hc, hD, hx, a1, a2, a3, a4, a5, a6, a7, a8, Arr1.idx, Arr1.idxSet, Arr1.upd, Arr1.map]

/-- `sym_tridiagonal` of a `2 × 2` matrix. -/
theorem tridiag2 (g : Nat → Nat → α) {x nsq n sn f z r v d p w q m1 m2 m3 : α} (hx : g 1 0 = x) (hd : g 1 1 = d)
    (a1 : 0 + x * x = nsq)
    (a2 : NdFloat.sqrt nsq = n) (a3 : NdFloat.signum x * n = sn) (a4 : x + sn = f)
    (a5 : (nsq + NdFloat.abs x * n) * NdFloat.ofRat 2 = z) (a6 : NdFloat.isZero z = false) (a7 : NdFloat.sqrt z = r)
    (a8 : f / r = v) (b1 : (0 + d * v) * NdFloat.ofRat 2 = p) (b2 : 0 + v * p = w) (b3 : -1 * (p * v) = q)
    (b3' : -1 * (v * p) = q) (b4 : d + q = m1) (b5 : m1 + q = m2) (b6 : m2 + (w + w) * (v * v) = m3) :
    ∃ t, symTridiagonal ⟨2, 2, g⟩ = .ok t ∧ t.diagMatrix.nr = 2 ∧ t.diagMatrix.nc = 2 ∧ t.offDiagonal.len = 1 ∧
      t.diagMatrix.get 0 0 = g 0 0 ∧ t.diagMatrix.get 1 1 = m3 ∧ t.offDiagonal.get 0 = -sn := by
  unfold symTridiagonal
  rw [checkSquare_ok rfl]
  simp [forRange, List.range', loopM, tridiagStep, Arr2.colSlice, Arr2.slice, ok_bind]
  obtain ⟨c', h1, h2, h3⟩ := axis1 hD ⟨1, fun i => g (i + 1) 0⟩ rfl (by simpa using hx) a1 a2 a3 a4 a5 a6 a7 a8
  have e : (⟨2 - 1, fun i => g (1 + i) 0⟩ : Arr1 α) = ⟨1, fun i => g (i + 1) 0⟩ := by
    congr 1; funext i; rw [Nat.add_comm]
  first
  | rw [h1]
  | (rw [show (fun i => g (1 + i) 0) = fun i => g (i + 1) 0 from funext fun i => by rw [Nat.add_comm]]; rw [h1])
  simp [ok_bind, Arr1.dot, hD, Arr1.idx, Arr1.idxSet, Arr1.upd, h2, h3,
    Arr2.putCol, hd, Arr1.zeros, Arr1.map, Arr1.slice, Arr1.put, matVecMul,
    rankOneUpdate, Arr2.put, b1, b2, b3, b3', b4, b5, b6]

/-- `eigvalsh` of a `2 × 2` matrix whose tridiagonal form is deflated at once. -/
theorem eigvals2 (fuel : Nat) (a : Arr2 α) (ha : HasShape a 2 2) (t : TridiagonalDecomp α)
    (hz : NdFloat.isZero a.amax = false) (ht : symTridiagonal (a.map fun x => x / a.amax) = .ok t)
    (h1 : t.diagMatrix.nr = 2) (h2 : t.diagMatrix.nc = 2) (h3 : t.offDiagonal.len = 1)
    (h4 : NdFloat.lt (NdFloat.epsilon * (NdFloat.abs (t.diagMatrix.get 1 1) + NdFloat.abs (t.diagMatrix.get 0 0)))
      (NdFloat.abs (NdFloat.abs (t.offDiagonal.get 0))) = false) :
    ∃ vals, eigvalsh (fuel + 1) a = .ok vals ∧ vals.len = 2 ∧ vals.get 0 = t.diagMatrix.get 0 0 * a.amax ∧
      vals.get 1 = t.diagMatrix.get 1 1 * a.amax := by
  obtain ⟨ha1, ha2⟩ := ha
  have hsd : a.scaleDown a.amax = a.map fun x => x / a.amax := by
    unfold Arr2.scaleDown; rw [hz]; simp
  unfold eigvalsh eigvalshInto symmetricEig
  rw [checkSquare_ok (ha1.trans ha2.symm)]
  simp [ok_bind, ha1, hsd, ht, TridiagonalDecomp.intoDiagonals, delimitSubproblem, delimitEnd, Arr1.at, Arr1.map,
    Arr2.diag, h1, h2, h3, h4, eigLoop]

/-- `qr` followed by `solve` on a `1 × 1` system. -/
theorem qrSolve1 (a b : Arr2 α) (ha : HasShape a 1 1) (hb : HasShape b 1 1) {x nsq n sn f z r v y k d e : α}
    (hx : a.get 0 0 = x)
    (hy : b.get 0 0 = y) (a1 : 0 + x * x = nsq)
    (a2 : NdFloat.sqrt nsq = n) (a3 : NdFloat.signum x * n = sn) (a4 : x + sn = f)
    (a5 : (nsq + NdFloat.abs x * n) * NdFloat.ofRat 2 = z) (a6 : NdFloat.isZero z = false) (a7 : NdFloat.sqrt z = r)
    (a8 : f / r = v) (b0 : NdFloat.isZero (-sn) = false) (b1 : (0 + v * y - 0) * NdFloat.ofRat (-2) = k)
    (b2 : y + k * v = d) (b3 : d * NdFloat.signum (-sn) / NdFloat.abs (-sn) = e) :
    ∃ w, leastSquares a b = .ok w ∧ HasShape w 1 1 ∧ w.get 0 0 = e := by
  obtain ⟨ha1, ha2⟩ := ha
  obtain ⟨hb1, hb2⟩ := hb
  obtain ⟨c', h1, h2, h3⟩ := axis1 hD ⟨1, fun i => a.get i 0⟩ rfl hx a1 a2 a3 a4 a5 a6 a7 a8
  have hq : ∃ q, qrInto a = .ok q ∧ HasShape q.qr 1 1 ∧ q.qr.get 0 0 = v ∧ q.diag.len = 1 ∧ q.diag.get 0 = -sn := by
    unfold qrInto
    simp [ha1, ha2, forRange, loopM, List.range', clearColumn, Arr2.colSlice, ok_bind, h1, h2, h3, Arr2.putCol,
      Arr2.slice, reflectCols, Arr1.idxSet, Arr1.zeros, Arr1.upd, Arr2.put, Arr2.map, HasShape]
  obtain ⟨q, q1, ⟨q2, q3⟩, q4, q5, q6⟩ := hq
  unfold leastSquares
  rw [if_pos (by rw [ha1, ha2]), q1, ok_bind]
  unfold QRDecomp.solveInto
  simp [q2, q3, hb1, hb2, QRDecomp.isInvertible, Arr1.toList, q5, q6, b0, QRDecomp.qtMul, forRange, forRev, loopM,
    List.range', Arr2.colSlice, Arr2.slice, ok_bind, reflectCols, Arr1.dot, hD, q4, hy, b1, b2, b3, Arr1.scaledAdd,
    Arr2.putCol, Arr1.idx, Arr2.map, Arr2.put, solveTriangularSystem, checkSquare, solveStep, QRDecomp.absDiag,
    Arr1.at, Arr2.at, Arr2.atm, Arr2.upd, HasShape]
end

/-! ## Columns whose squares underflow to zero -/

namespace Flt
variable {R : Rounding}

/-- A zero of either sign. -/
def IsZ (x : Flt R) : Prop := ∃ s, x = fin s 0

theorem IsZ.add {x y : Flt R} (hx : IsZ x) (hy : IsZ y) : IsZ (Flt.add x y) := by
  obtain ⟨s, rfl⟩ := hx
  obtain ⟨t, rfl⟩ := hy
  exact ⟨s && t, by simp [Flt.add, ofReal, val]⟩

theorem IsZ.sqrt {x : Flt R} (hx : IsZ x) : IsZ (Flt.sqrt x) := by
  obtain ⟨s, rfl⟩ := hx
  exact ⟨s, by simp [Flt.sqrt]⟩

theorem IsZ.mul_fin (h0 : R.rnd 0 = some 0) {x : Flt R} (hx : IsZ x) (s : Bool) (m : ℝ) : IsZ (Flt.mul (fin s m) x) := by
  obtain ⟨t, rfl⟩ := hx
  exact ⟨s != t, by simp [Flt.mul, round, h0]⟩

theorem IsZ.fin_mul (h0 : R.rnd 0 = some 0) {x : Flt R} (hx : IsZ x) (s : Bool) (m : ℝ) : IsZ (Flt.mul x (fin s m)) := by
  obtain ⟨t, rfl⟩ := hx
  exact ⟨t != s, by simp [Flt.mul, round, h0]⟩

/-- The float is finite and its square is rounded to zero. -/
def SqZ (x : Flt R) : Prop := ∃ s m, x = fin s m ∧ R.rnd (m * m) = some 0

theorem SqZ.mul {x : Flt R} (hx : SqZ x) : IsZ (Flt.mul x x) := by
  obtain ⟨s, m, rfl, h⟩ := hx
  exact ⟨false, by simp [Flt.mul, round, h]⟩

theorem SqZ.fma {x y : Flt R} (hx : SqZ x) (hy : IsZ y) : IsZ (Flt.fma x x y) := by
  obtain ⟨s, m, rfl, h⟩ := hx
  obtain ⟨t, rfl⟩ := hy
  have e : val s m * val s m + val t 0 = m * m := by cases s <;> simp [val, sgn]
  show IsZ (ofReal ((s != s) && t) (val s m * val s m + val t 0))
  rw [e]
  unfold ofReal
  split_ifs
  · exact ⟨_, rfl⟩
  · rw [abs_of_nonneg (mul_self_nonneg m), round, h]
    exact ⟨_, rfl⟩

theorem SqZ.eval (h0 : R.rnd 0 = some 0) (l : List (Flt R × Flt R)) (hl : ∀ p ∈ l, p.1 = p.2 ∧ SqZ p.1) (d : DotPlan) :
    IsZ (d.eval (fin false 0) Flt.add Flt.mul Flt.fma l) := by
  have hz : SqZ (fin false 0 : Flt R) := ⟨false, 0, rfl, by simpa using h0⟩
  have hk : ∀ k, (l.getD k (fin false 0, fin false 0)).1 = (l.getD k (fin false 0, fin false 0)).2 ∧
      SqZ (l.getD k (fin false 0, fin false 0)).1 := fun k => by
    by_cases h : k < l.length
    · have := hl _ (List.getElem_mem h)
      simpa [List.getD, h] using this
    · simpa [List.getD, Nat.le_of_not_lt h] using hz
  induction d with
  | zero => exact ⟨_, rfl⟩
  | prod k =>
    obtain ⟨e, h⟩ := hk k
    rw [DotPlan.eval, ← e]
    exact h.mul
  | add s t ihs iht => exact ihs.add iht
  | fma s k ih =>
    obtain ⟨e, h⟩ := hk k
    rw [DotPlan.eval, ← e]
    exact h.fma ih

/-- `reflection_axis_mut` finds no axis in a column whose squares vanish. -/
theorem SqZ.reflectionAxisMut (h0 : R.rnd 0 = some 0) (h2 : R.rnd 2 = some 2) (c : Arr1 (Flt R)) (hc : 0 < c.len)
    (h : ∀ i, i < c.len → SqZ (c.get i)) : ∃ c', reflectionAxisMut c = .ok (c', none) := by
  unfold LinfaLinalg.reflectionAxisMut
  simp only [Arr1.dot, if_true, ok_bind]
  rw [Arr1.idx_ok hc]
  simp only [ok_bind]
  rw [Arr1.idxSet_ok hc]
  simp only [ok_bind]
  have hd : IsZ (dotTo c.len c.get c.get) := by
    refine SqZ.eval h0 _ (fun p hp => ?_) _
    rw [List.mem_map] at hp
    obtain ⟨k, hk, rfl⟩ := hp
    exact ⟨rfl, h k (List.mem_range.1 hk)⟩
  obtain ⟨s, m, e, -⟩ := h 0 hc
  have hz : IsZ ((dotTo c.len c.get c.get + NdFloat.abs (c.get 0) * NdFloat.sqrt (dotTo c.len c.get c.get)) *
      NdFloat.ofRat 2) := by
    have h1 : IsZ (Flt.add (dotTo c.len c.get c.get) (Flt.mul (Flt.abs (c.get 0)) (Flt.sqrt (dotTo c.len c.get c.get)))) := by
      rw [e]
      exact hd.add (hd.sqrt.mul_fin h0 _ _)
    have e2 : (NdFloat.ofRat 2 : Flt R) = fin false 2 := by
      show Flt.ofReal false ((2 : ℚ) : ℝ) = _
      rw [Flt.ofReal, if_neg (by norm_num), round, abs_of_pos (by norm_num), show ((2 : ℚ) : ℝ) = 2 by norm_num, h2]
      simp
    rw [e2]
    exact h1.fin_mul h0 _ _
  obtain ⟨t, ht⟩ := hz
  rw [ht, if_neg]
  · exact ⟨_, rfl⟩
  · show ¬ ((!Flt.isZero (fin t 0)) = true)
    simp [Flt.isZero]

end Flt

/-- `qr` stores a zero for a leading column whose squares vanish. -/
theorem qrInto_lost {R : Rounding} (h0 : R.rnd 0 = some 0) (h02 : R.rnd 2 = some 2) (a : Arr2 (Flt R)) (hn : a.nc ≤ a.nr) (h1 : 0 < a.nc)
    (h : ∀ i, i < a.nr → Flt.SqZ (a.get i 0)) :
    ∃ q, qrInto a = .ok q ∧ QRShape a.nr a.nc q ∧ q.diag.get 0 = 0 := by
  have hw : Succeeds (forRange 0 a.nc (a, (Arr1.zeros a.nc : Arr1 (Flt R))) fun i (a, diag) => do
      let (a, d) ← clearColumn a i 0
      let diag ← diag.idxSet i d
      .ok (a, diag))
      (fun p : Arr2 (Flt R) × Arr1 (Flt R) => p.1.nr = a.nr ∧ p.1.nc = a.nc ∧ p.2.len = a.nc ∧ p.2.get 0 = 0) := by
    refine wp_mono (wp_forRange (fun i (p : Arr2 (Flt R) × Arr1 (Flt R)) => p.1.nr = a.nr ∧ p.1.nc = a.nc ∧
      p.2.len = a.nc ∧ p.2.get 0 = 0 ∧ (i = 0 → p.1 = a)) (Nat.zero_le _) ⟨rfl, rfl, rfl, rfl, fun _ => rfl⟩ ?_)
      (fun p hp => ⟨hp.1, hp.2.1, hp.2.2.1, hp.2.2.2.1⟩) (fun _ => id)
    rintro i ⟨b, diag⟩ _ hi ⟨h1, h2, h3, h4, h5⟩
    simp only at h1 h2 h3 h4 h5
    by_cases hi0 : i = 0
    · subst hi0
      have hb := h5 rfl
      subst hb
      obtain ⟨c', hc'⟩ := Flt.SqZ.reflectionAxisMut h0 h02 ⟨b.nr, fun i => b.get i 0⟩ (by simp only; omega)
        (fun i hi => h i hi)
      have : clearColumn b 0 0 = .ok (b.putCol 0 0 c', 0) := by
        unfold clearColumn
        rw [Arr2.colSlice_ok (by omega) le_rfl hi]
        simp only [ok_bind, Nat.zero_add, Nat.sub_zero, Nat.add_zero, hc']
      simp only [this, ok_bind]
      rw [Arr1.idxSet_ok (by omega)]
      exact ⟨rfl, rfl, h3, by simp [Arr1.upd], by simp⟩
    · obtain ⟨c, d, hc, h6, h7⟩ := clearColumn_ok b i 0 (by omega) (by omega)
      simp only [hc, ok_bind]
      rw [Arr1.idxSet_ok (by omega)]
      exact ⟨h6.trans h1, h7.trans h2, h3, by simpa [Arr1.upd, Ne.symm hi0] using h4, by simp⟩
  obtain ⟨p, hp, g1, g2, g3, g4⟩ := succeeds_iff.1 hw
  refine ⟨⟨p.1, p.2⟩, ?_, ⟨g1, g2, g3⟩, g4⟩
  unfold qrInto
  rw [if_neg (by omega), hp]
  rfl

end LinfaLinalg
