import Verif.Props.Overflow
import Verif.Props.Underflow
import Verif.Props.IeeeNorm
import Verif.Props.Precision
import Verif.Props.Formats
import Verif.Props.LobpcgScale

/-! # The range of `qr`, `least_squares`, the inverse and the norms in every format

C90, C94, C96 and C98 state the findings about overflow and underflow for double precision. Here they are stated for every
IEEE 754 format, so also for `f32`, and for every order of summation. In single precision the range is much smaller: an
entry of `2⁶⁴ ≈ 1.8·10¹⁹` is too large, one of `2⁻⁷⁵ ≈ 2.6·10⁻²³` is too small. -/

namespace LinfaLinalg

open Flt

variable {F : Format}

/-- A number whose square is beyond the range of the format. -/
def TooLarge (F : Format) {R : Rounding} (x : Flt R) : Prop := ∃ s m, x = .fin s m ∧ 0 ≤ m ∧ 2 ^ F.emax ≤ m ^ 2

/-- A number whose square is at most half of the smallest positive number of the format. -/
def TooSmall (F : Format) {R : Rounding} (x : Flt R) : Prop := ∃ s m, x = .fin s m ∧ m ^ 2 ≤ 2 ^ F.emin / 2

theorem TooLarge.sqInf {P : DotPlans} {x : Flt { Rounding.ieee F with plans := P }} (h : TooLarge F x) : SqInf x := by
  obtain ⟨s, m, rfl, h0, hm⟩ := h
  have hp : (0 : ℝ) < 2 ^ F.emax := by positivity
  refine Or.inr ⟨s, m, rfl, lt_of_le_of_ne h0 ?_, fun y hy => Format.round_huge (hm.trans ?_)⟩
  · rintro rfl
    norm_num at hm
    linarith
  · rw [sq]
    exact hy

theorem TooSmall.sqZ {P : DotPlans} {x : Flt { Rounding.ieee F with plans := P }} (h : TooSmall F x) : SqZ x := by
  obtain ⟨s, m, rfl, hm⟩ := h
  exact ⟨s, m, rfl, Format.round_tiny (mul_self_nonneg m) (by rw [← sq]; exact hm)⟩

theorem Format.round_two (F : Format) : F.round 2 = some 2 := by
  have hk : (0 : ℤ) < F.mant := by have := F.mant_pos; omega
  have h1 := F.half
  have h2 := F.one
  exact IsMag.round ⟨2 ^ F.mant, 1 - F.mant, Nat.pow_lt_pow_right (by norm_num) (by omega), by omega, by omega, by
    rw [zpow_sub₀ (by norm_num), zpow_natCast]
    push_cast
    field_simp⟩

/-- **C94** in every format, `least_squares`: a single number in the first column (the first row, if there are more columns
than rows) whose square overflows is not reported, and every entry of the answer is NaN. -/
theorem C94_least_squares_nan_format (P : DotPlans) (a b : Arr2 (Flt { Rounding.ieee F with plans := P })) (hb : b.nr = a.nr)
    (h0 : 0 < a.nr) (h0' : 0 < a.nc)
    (h : a.nc ≤ a.nr ∧ (∀ i, i < a.nr → a.get i 0 ≠ .nan) ∧ (∃ r, r < a.nr ∧ TooLarge F (a.get r 0)) ∨
      a.nr < a.nc ∧ (∀ i, i < a.nc → a.get 0 i ≠ .nan) ∧ ∃ c, c < a.nc ∧ TooLarge F (a.get 0 c)) :
    ∃ x, leastSquares a b = .ok x ∧ HasShape x a.nc b.nc ∧ ∀ i k, i < a.nc → k < b.nc → x.get i k = .nan := by
  rcases h with ⟨hle, h, r, hr, hl⟩ | ⟨hlt, h, c, hc, hl⟩
  · exact leastSquares_overflow a b hb hle h0' hr h hl.sqInf
  · exact leastSquares_overflow_wide a b hb hlt h0 hc h hl.sqInf

/-- **C94** in every format, `qr` and `inverse`. -/
theorem C94_inverse_nan_format (P : DotPlans) (a : Arr2 (Flt { Rounding.ieee F with plans := P })) (hs : a.nr = a.nc)
    (h : ∀ i, i < a.nr → a.get i 0 ≠ .nan) (r : Nat) (hr : r < a.nr) (hl : TooLarge F (a.get r 0)) :
    ∃ x, (do let q ← qrInto a; q.inverse) = .ok x ∧ HasShape x a.nr a.nr ∧
      ∀ i k, i < a.nr → k < a.nr → x.get i k = .nan := by
  obtain ⟨x, hx, h1, h2⟩ := leastSquares_overflow a (Arr2.eye a.nr a.nr) rfl (by omega) (by omega) hr h hl.sqInf
  refine ⟨x, ?_, ⟨h1.1.trans hs.symm, h1.2⟩, fun i k hi hk => h2 i k (by omega) hk⟩
  obtain ⟨q, hq, hsh⟩ := qrInto_ok a (by omega)
  unfold leastSquares at hx
  rw [if_pos (by omega), hq, ok_bind] at hx
  rw [hq, ok_bind]
  unfold QRDecomp.inverse checkSquare
  rw [if_neg (by rw [hsh.nr, hsh.nc]; simpa using hs)]
  simp only [ok_bind]
  rw [hsh.len, ← hs]
  exact hx

/-- **C94** in every format, `qr`: the decomposition claims to be invertible, and its diagonal is an infinity followed by
NaNs. -/
theorem C94_qr_diag_format (P : DotPlans) (a : Arr2 (Flt { Rounding.ieee F with plans := P })) (hle : a.nc ≤ a.nr)
    (h0 : 0 < a.nc) (h : ∀ i, i < a.nr → a.get i 0 ≠ .nan) (r : Nat) (hr : r < a.nr) (hl : TooLarge F (a.get r 0)) :
    ∃ q s, qrInto a = .ok q ∧ q.isInvertible = true ∧ q.diag.get 0 = .inf s ∧
      ∀ i, 0 < i → i < a.nc → q.diag.get i = .nan := by
  obtain ⟨q, s, hq, hsh, h2, -, h4⟩ := qrInto_overflow a hle h0 hr h hl.sqInf
  exact ⟨q, s, hq, isInvertible_overflow hsh h2 h4, h2, h4⟩

/-- The matrix `2⁶⁴ I` in single precision. -/
example : ∃ x, (do let q ← qrInto (⟨3, 3, fun i j => .fin false (if i = j then (2 : ℝ) ^ (64 : ℤ) else 0)⟩ :
      Arr2 (Flt { Rounding.ieee .single with plans := .unrolled })); q.inverse) = .ok x ∧ x.get 1 1 = .nan := by
  obtain ⟨x, hx, -, h⟩ := C94_inverse_nan_format (F := .single) .unrolled
    ⟨3, 3, fun i j => .fin false (if i = j then (2 : ℝ) ^ (64 : ℤ) else 0)⟩ rfl (fun i _ h => by cases h) 0 (by norm_num)
    ⟨false, _, rfl, by simp, by simp [Format.single]; norm_num⟩
  exact ⟨x, hx, h 1 1 (by norm_num) (by norm_num)⟩

/-- **C90** in every format (lost columns): every `m × n` matrix, `m ≥ n ≥ 1`, is reported as `NonInvertible` if the square of
every entry of its first column is at most half of the smallest positive number, also if it has full rank. -/
theorem C90_lost_column_format (P : DotPlans) {m n k : Nat} (hn : 1 ≤ n) (hm : n ≤ m)
    (a b : Arr2 (Flt { Rounding.ieee F with plans := P })) (ha : HasShape a m n) (hb : HasShape b m k)
    (h : ∀ i, i < m → TooSmall F (a.get i 0)) : leastSquares a b = .error (.err .nonInvertible) := by
  obtain ⟨ha1, ha2⟩ := ha
  obtain ⟨q, hq, hs, hd⟩ := qrInto_lost (R := { Rounding.ieee F with plans := P }) F.round_zero F.round_two a (by omega)
    (by omega) fun i hi => (h i (by omega)).sqZ
  unfold leastSquares
  rw [if_pos (by omega), hq, ok_bind]
  refine (hs.solveInto_cases (by omega) b).2.1 (hb.1.trans ha1.symm) ?_
  unfold QRDecomp.isInvertible
  rw [List.all_eq_false]
  refine ⟨q.diag.get 0, ?_, ?_⟩
  · unfold Arr1.toList
    rw [List.mem_map]
    exact ⟨0, by rw [List.mem_range, hs.len]; omega, rfl⟩
  · rw [hd]
    show ¬ (!Flt.isZero (.fin false 0)) = true
    simp [Flt.isZero]

theorem two_neg_75 : ((2 : ℝ) ^ (-75 : ℤ)) ^ 2 ≤ 2 ^ Format.single.emin / 2 := by norm_num [Format.single]

/-- The invertible matrix `2⁻⁷⁵ I` of order three, in single precision. -/
example : leastSquares (⟨3, 3, fun i j => .fin false (if i = j then (2 : ℝ) ^ (-75 : ℤ) else 0)⟩ :
      Arr2 (Flt { Rounding.ieee .single with plans := .unrolled }))
    ⟨3, 3, fun i j => .fin false (if i = j then (2 : ℝ) ^ (-75 : ℤ) else 0)⟩ = .error (.err .nonInvertible) :=
  C90_lost_column_format (F := .single) .unrolled (by norm_num) le_rfl _ _ ⟨rfl, rfl⟩ ⟨rfl, rfl⟩ fun i _ => by
    refine ⟨false, _, rfl, ?_⟩
    split_ifs
    · exact two_neg_75
    · rw [zero_pow (by norm_num)]; positivity

/-- **C98** in every format, underflow: `norm_l2` of numbers whose squares are at most half of the smallest positive number is
zero. -/
theorem C98_norm_l2_underflow_format (P : DotPlans) (l : List (Flt { Rounding.ieee F with plans := P }))
    (h : ∀ x ∈ l, TooSmall F x) : normL2 l = 0 := by
  have hz : ∀ x ∈ l, x * x = 0 := by
    intro x hx
    obtain ⟨s, m, rfl, hm⟩ := (h x hx).sqZ
    show Flt.mul _ _ = Flt.fin false 0
    have hm' : (Rounding.ieee F).rnd (m * m) = some 0 := hm
    simp only [Flt.mul, Flt.round, bne_self_eq_false, hm']
  have h0 : (0 : Flt { Rounding.ieee F with plans := P }) + 0 = 0 := by
    show Flt.add (.fin false 0) (.fin false 0) = .fin false 0
    simp [Flt.add, Flt.ofReal, val]
  have hs : (l.map fun x => x * x).foldl (· + ·) 0 = (0 : Flt { Rounding.ieee F with plans := P }) := by
    clear h
    induction l with
    | nil => rfl
    | cons x l ih =>
      rw [List.map_cons, List.foldl_cons, hz x (by simp), h0]
      exact ih fun y hy => hz y (by simp [hy])
  unfold normL2
  rw [hs]
  show Flt.sqrt (.fin false 0) = .fin false 0
  simp [Flt.sqrt]

/-- **C98** in every format, overflow: `norm_l2` is infinite as soon as the square of one entry overflows and none is NaN. -/
theorem C98_norm_l2_overflow_format (P : DotPlans) (l : List (Flt { Rounding.ieee F with plans := P }))
    (hn : ∀ x ∈ l, x ≠ .nan) (h : ∃ x ∈ l, TooLarge F x) : normL2 l = .inf false := by
  have key : ∀ (l : List (Flt { Rounding.ieee F with plans := P })) (s : Flt { Rounding.ieee F with plans := P }),
      Good s → (∀ x ∈ l, x ≠ .nan) → (s = .inf false ∨ ∃ x ∈ l, TooLarge F x) →
      (l.map fun x => x * x).foldl (· + ·) s = .inf false := by
    intro l
    induction l with
    | nil =>
      intro s _ _ h
      rcases h with h | ⟨x, hx, -⟩
      · exact h
      · cases hx
    | cons x l ih =>
      intro s hs hl h
      have hx : Good (x * x) := good_sq (hl x (by simp))
      rw [List.map_cons, List.foldl_cons]
      refine ih _ (good_add hs hx) (fun y hy => hl y (by simp [hy])) ?_
      rcases h with rfl | ⟨y, hy, hL⟩
      · exact Or.inl (inf_add_good hx)
      · rcases List.mem_cons.1 hy with rfl | hy
        · refine Or.inl ?_
          have : y * y = .inf false := hL.sqInf.mul
          rw [this]
          exact good_add_inf hs
        · exact Or.inr ⟨y, hy, hL⟩
  unfold normL2
  rw [key l 0 (by show Good (.fin false 0); simp [Good, val]) hn (Or.inr h)]
  rfl

/-- `(2⁻⁷⁵, 2⁻⁷⁵)` and `(1, 2⁶⁴)` in single precision. -/
example : normL2 ([.fin false ((2 : ℝ) ^ (-75 : ℤ)), .fin true ((2 : ℝ) ^ (-75 : ℤ))] :
      List (Flt { Rounding.ieee .single with plans := .unrolled })) = 0 ∧
    normL2 ([.fin false 1, .fin true ((2 : ℝ) ^ (64 : ℤ))] :
      List (Flt { Rounding.ieee .single with plans := .unrolled })) = .inf false := by
  refine ⟨C98_norm_l2_underflow_format .unrolled _ fun x hx => ?_, C98_norm_l2_overflow_format .unrolled _ ?_
    ⟨.fin true ((2 : ℝ) ^ (64 : ℤ)), by simp, true, _, rfl, by positivity, by norm_num [Format.single]⟩⟩
  · simp only [List.mem_cons, List.not_mem_nil, or_false] at hx
    rcases hx with rfl | rfl <;> exact ⟨_, _, rfl, two_neg_75⟩
  · intro x hx
    simp only [List.mem_cons, List.not_mem_nil, or_false] at hx
    rcases hx with rfl | rfl <;> intro h <;> cases h

/-- **C96** in every format, what to check: when `cholesky` accepts a matrix and no diagonal entry of the factor is NaN, they
are all finite, so that the bounds of `C96_backward_error` and `C113_cholesky` hold. -/
theorem C96_nan_or_finite_format (P : DotPlans) {n : Nat} (a l : Arr2 (Flt { Rounding.ieee F with plans := P }))
    (ha : HasShape a n n) (hd : ∀ i, i < n → ∃ s m, a.get i i = .fin s m ∧ IsMag F m)
    (h : cholesky a = .ok l) (hl : ∀ i, i < n → l.get i i ≠ .nan) (i : Nat) (hi : i < n) : IsFin (l.get i i) := by
  obtain ⟨rfl, ha2⟩ := ha
  rcases cholesky_cases a ha2.symm with ⟨b, hb, hr, -, -⟩ | ⟨hb, -⟩
  swap
  · rw [hb] at h
    cases h
  rw [hb] at h
  cases h
  have e : (cleanLower b).get i i = b.get i i := by
    simp only [cleanLower]
    rw [if_neg (by omega)]
  have hni := hl i hi
  rw [e] at hni ⊢
  have hp := hr.piv i hi
  rw [hr.diag i hi] at hni ⊢
  obtain ⟨s, m, hm, hmr⟩ := hd i hi
  have hm0 := hmr.nonneg
  change Flt.le _ _ = false at hp
  change Flt.sqrt _ ≠ nan at hni
  change IsFin (Flt.sqrt _)
  unfold pivot at hp hni ⊢
  rw [hm, sub_def] at hp hni ⊢
  rcases notNeg_sumTo i (fun c => b.get i c) with hS | hS | ⟨t, k, hS, hk⟩
  · rw [hS] at hni
    exact absurd rfl hni
  · rw [hS] at hp
    change Flt.le (.inf true) (.fin false 0) = false at hp
    simp [Flt.le] at hp
  rw [hS] at hp hni ⊢
  simp only [Flt.neg, Flt.add] at hp hni ⊢
  have hv : val (!t) k = - val t k := by cases t <;> simp [val, sgn]
  rw [hv] at hp hni ⊢
  set v := val s m + -val t k with hvd
  have hz : (0 : Flt { Rounding.ieee F with plans := P }) = .fin false 0 := rfl
  rw [hz] at hp
  have hrnd : ∀ neg y, (Flt.round neg y : Flt { Rounding.ieee F with plans := P }) =
    match F.round y with | none => .inf neg | some z => .fin neg z := fun _ _ => rfl
  have hnn : ∀ y z, F.round y = some z → 0 ≤ z := (Rounding.ieee F).rnd_nonneg
  rcases lt_trichotomy v 0 with h0 | h0 | h0
  · exfalso
    rw [ofReal, if_neg h0.ne, decide_eq_true h0, hrnd] at hp
    cases hz : F.round |v| with
    | none => rw [hz] at hp; simp [Flt.le] at hp
    | some z => rw [hz] at hp; have := hnn _ _ hz; simp [Flt.le, val, sgn] at hp; linarith
  · exfalso
    rw [ofReal, if_pos h0] at hp
    simp [Flt.le, val] at hp
  · have hvm : v ≤ m := by
      have : val s m ≤ m := by cases s <;> simp [val, sgn]; linarith
      linarith
    obtain ⟨y, hy, -⟩ := Format.round_le h0.le hmr hvm
    have hy' : F.round |v| = some y := by rw [abs_of_pos h0]; exact hy
    rw [ofReal, if_neg h0.ne', decide_eq_false (not_lt.2 h0.le), hrnd, hy'] at hp ⊢
    simp only [Flt.sqrt]
    have hy0 := hnn _ _ hy
    split_ifs with h1 h2
    · exact ⟨_, _, rfl⟩
    · exact absurd h2 (by simp)
    have hz : ∃ z, F.round (Real.sqrt y) = some z := by
      rcases le_total y 1 with h3 | h3
      · obtain ⟨z, hz, -⟩ := Format.round_le (Real.sqrt_nonneg y) isMag_one (Real.sqrt_le_one.2 h3)
        exact ⟨z, hz⟩
      · obtain ⟨z, hz, -⟩ := Format.round_le (Real.sqrt_nonneg y) (Format.round_isMag h0.le hy)
          (Real.sqrt_le_iff.2 ⟨hy0, by nlinarith⟩)
        exact ⟨z, hz⟩
    obtain ⟨z, hz⟩ := hz
    rw [hrnd, hz]
    exact ⟨_, _, rfl⟩

/-- The matrix `[[4, 2], [2, 5]]` in single precision. -/
example : ∃ (a l : Arr2 (Flt (Rounding.ieee .single))), HasShape a 2 2 ∧
    (∀ i, i < 2 → ∃ s m, a.get i i = .fin s m ∧ IsMag .single m) ∧ cholesky a = .ok l ∧ ∀ i, i < 2 → l.get i i ≠ .nan := by
  obtain ⟨a, l, h1, h2, -, -, h3, h4, h5, h6, -, h7, -⟩ := single_cholesky
  refine ⟨a, l, h1, fun i hi => ?_, h5, fun i hi => ?_⟩
  · have hf := h2 i (h1.1 ▸ hi) i (h1.2 ▸ hi)
    have : i = 0 ∨ i = 1 := by omega
    rcases this with rfl | rfl
    · rw [h3] at hf ⊢
      exact ⟨_, _, rfl, hf⟩
    · rw [h4] at hf ⊢
      exact ⟨_, _, rfl, hf⟩
  · have : i = 0 ∨ i = 1 := by omega
    rcases this with rfl | rfl
    · rw [h6]; intro h; cases h
    · rw [h7]; intro h; cases h

end LinfaLinalg
