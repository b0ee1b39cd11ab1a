import Verif.Proofs.EighExample
import Verif.Spec.Rounded
set_option linter.unusedSimpArgs false
set_option linter.unusedSectionVars false
/-! # `eigh` evaluated in double precision -/

namespace LinfaLinalg

open Matrix

variable {α : Type} [Zero α] [One α] [Add α] [Sub α] [Mul α] [Div α] [Neg α] [NdFloat α]

/-- Inner products of at most two pairs are summed from the left. -/
structure ShortDots (α : Type) [Zero α] [Add α] [Mul α] [NdFloat α] : Prop where
  one : ∀ f g : Nat → α, dotTo 1 f g = 0 + f 0 * g 0
  two : ∀ f g : Nat → α, dotTo 2 f g = 0 + f 0 * g 0 + f 1 * g 1

/-- `sym_tridiagonal` of a `2 × 2` matrix, the results of the operations being given. -/
theorem tri2 (hD : ShortDots α) (g : Nat → Nat → α) {d0 o d1 oo o2 o3 o4 e e' n1 n3 f : α} (h00 : g 0 0 = d0) (h10 : g 1 0 = o)
    (h11 : g 1 1 = d1) (a1 : o * o = oo) (a2 : 0 + oo = oo) (a3 : NdFloat.sqrt oo = o) (a4 : NdFloat.signum o = 1)
    (a5 : 1 * o = o) (a6 : NdFloat.abs o * o = oo) (a7 : oo + oo = o3) (a8 : o3 * NdFloat.ofRat 2 = o4)
    (a9 : NdFloat.isZero o4 = false) (a10 : NdFloat.sqrt o4 = o2) (a11 : o + o = o2) (a12 : o2 / o2 = 1)
    (b1 : d1 * 1 = d1) (b2 : 0 + d1 = d1) (b3 : d1 * NdFloat.ofRat 2 = e) (b4 : 1 * e = e) (b5 : 0 + e = e)
    (b6 : e * 1 = e) (b7 : -1 * e = e') (b8 : d1 + e' = n1) (b9 : n1 + e' = n3) (b10 : e + e = f)
    (b11 : (1 : α) * 1 = 1) (b12 : f * 1 = f) (b13 : n3 + f = d1) :
    ∃ t, symTridiagonal ⟨2, 2, g⟩ = .ok t ∧ t.diagMatrix.nr = 2 ∧ t.diagMatrix.nc = 2 ∧ t.offDiagonal.len = 1 ∧
      t.diagMatrix.get 0 0 = d0 ∧ t.diagMatrix.get 1 1 = d1 ∧ t.diagMatrix.get 1 0 = 1 ∧
      t.offDiagonal.get 0 = -o := by
  unfold symTridiagonal
  rw [checkSquare_ok rfl]
  simp [forRange, List.range', loopM, tridiagStep, Arr2.colSlice, Arr2.slice, reflectionAxisMut,
    ok_bind, Arr1.dot, hD.one, hD.two, Arr1.idx, Arr1.idxSet, Arr1.upd,
    Arr2.putCol, h00, h10, h11, Arr1.zeros, Arr1.map, Arr1.slice, Arr1.put, matVecMul,
    rankOneUpdate, Arr2.put, a1, a2, a3, a4, a5, a6, a7, a8, a9, a10, a11, a12,
    b1, b2, b3, b4, b5, b6, b7, b8, b9, b10, b11, b12, b13]

/-- `generate_q` of the same matrix. -/
theorem q2 (hD : ShortDots α) (t : TridiagonalDecomp α) {o k : α} (h1 : t.diagMatrix.nr = 2)
    (h2 : t.diagMatrix.nc = 2) (h3 : t.offDiagonal.len = 1) (h10 : t.diagMatrix.get 1 0 = 1) (h0 : t.offDiagonal.get 0 = -o)
    (a1 : NdFloat.signum (-o) = -1) (a2 : (1 : α) * 0 = 0) (a3 : (1 : α) * 1 = 1) (a4 : (0 : α) + 0 = 0)
    (a5 : (0 : α) + 1 = 1) (a6 : (0 : α) - 0 = 0) (a7 : (1 : α) - 0 = 1) (a8 : (0 : α) * NdFloat.ofRat (-2) = 0)
    (a9 : (1 : α) * NdFloat.ofRat (-2) = k) (a10 : (0 : α) * 1 = 0) (a11 : k * 1 = k) (a12 : 1 + k = -1)
    (a13 : (0 : α) * -1 = 0) (a14 : (-1 : α) * -1 = 1) :
    ∃ q, t.generateQ = .ok q ∧ HasShape q 2 2 ∧ q.get 0 0 = 1 ∧ q.get 0 1 = 0 ∧ q.get 1 0 = 0 ∧ q.get 1 1 = 1 := by
  unfold TridiagonalDecomp.generateQ assembleQ
  simp [forRev, forRange, List.range', loopM, h1, h2, h3, h0, Arr2.colSlice, Arr2.slice, ok_bind, Arr1.dot,
    reflectCols, hD.one, hD.two, Arr1.idx, Arr1.scaledAdd, Arr2.putCol, Arr2.put, Arr2.eye,
    h10, Arr2.map, HasShape, a1, a2, a3, a4, a5, a6, a7, a8, a9, a10, a11, a12, a13, a14]

/-- The main loop on a `2 × 2` block whose rotation is not skipped. -/
theorem loop2 (fuel : Nat) (d o : Arr1 α) (q : Arr2 α) (eps : α) {d0 o0 d1 l0 l1 x norm : α} (hd : d.len = 2) (ho : o.len = 1)
    (hq : HasShape q 2 2) (h0 : d.get 0 = d0) (h1 : d.get 1 = d1) (ho0 : o.get 0 = o0)
    (a1 : NdFloat.lt (eps * (NdFloat.abs d1 + NdFloat.abs d0)) (NdFloat.abs o0) = true)
    (a2 : compute2x2Eigvals d0 o0 o0 d1 = some (l0, l1)) (a3 : l0 - d1 = x)
    (a4 : NdFloat.hypot x o0 = norm) (a5 : NdFloat.lt eps norm = true) :
    ∃ off s e st q', delimitSubproblem d o 1 eps = .ok (off, s, e) ∧
      eigLoop eps (fuel + 1) ⟨d, off, some q, s, e⟩ = .ok st ∧ st.q = some q' ∧ st.diag.len = 2 ∧ st.diag.get 0 = l0 ∧
      st.diag.get 1 = l1 ∧ HasShape q' 2 2 ∧
      q'.get 0 0 = q.get 0 0 * (x / norm) + o0 / norm * q.get 0 1 ∧
      q'.get 1 0 = q.get 1 0 * (x / norm) + o0 / norm * q.get 1 1 := by
  have hdel : delimitSubproblem d o 1 eps = .ok (o, 0, 1) := by
    simp [delimitSubproblem, delimitEnd, delimitStart, Arr1.at, hd, ho, h0, h1, ho0, ok_bind, a1]
  obtain ⟨q1, q2⟩ := hq
  have hrot : GivensRotation.tryNew x o0 eps = some (⟨x / norm, o0 / norm⟩, norm) := by
    unfold GivensRotation.tryNew
    simp [a4, a5]
  refine ⟨o, 0, 1, ?_⟩
  unfold eigLoop
  simp only [hdel]
  simp [eigStep, eig2x2, hdel, hd, ho, h0, h1, ho0, Arr1.idx, Arr1.idxSet, Arr1.upd, ok_bind, a2, a3, hrot,
    rotateColsPair, Arr2.slice, GivensRotation.rotateRows, q1, q2, forRange, loopM, List.range', unwrapM,
    Arr2.at, Arr2.atm, Arr2.put, Arr2.upd, delimitSubproblem, delimitEnd]
  cases fuel <;> simp [eigLoop, HasShape]

/-! ## Evaluating `binRound` -/

theorem roundEven_int (k : ℤ) : roundEven (k : ℝ) = k := by
  unfold roundEven
  rw [Int.fract_intCast, if_pos (by norm_num), Int.floor_intCast]

/-- Numbers with at most 53 digits are not rounded. -/
theorem binRound_exact {x y : ℝ} (k e : ℤ) (hk : |k| < 2 ^ 53) (hx : x = k * 2 ^ e) (hy : y = x) :
    binRound 53 x = y := by
  rw [hy]
  by_cases h0 : k = 0
  · subst h0
    simp at hx
    subst hx
    simp [binRound, roundEven]
  have hx0 : 0 < |x| := by rw [hx]; positivity
  have hlog : Int.log 2 |x| + 1 - (53 : ℕ) ≤ e := by
    have : Int.log 2 |x| < 53 + e := by
      rw [← Int.lt_zpow_iff_log_lt (by norm_num) hx0, hx, abs_mul, abs_of_pos (by positivity : (0 : ℝ) < 2 ^ e)]
      rw [show (((2 : ℕ) : ℝ)) = 2 by norm_num, zpow_add₀ (by norm_num)]
      refine mul_lt_mul_of_pos_right ?_ (by positivity)
      rw [← Int.cast_abs]
      exact_mod_cast hk
    omega
  obtain ⟨n, hn⟩ := Int.le.dest hlog
  unfold binRound
  set e' := Int.log 2 |x| + 1 - (53 : ℕ) with he'
  have h2 : x / 2 ^ e' = ((k * 2 ^ n : ℤ) : ℝ) := by
    rw [hx, ← hn, zpow_add₀ (by norm_num)]
    push_cast
    rw [zpow_natCast]
    field_simp
  rw [h2, roundEven_int]
  rw [← h2]
  field_simp

theorem roundEven_near {z : ℝ} {k : ℤ} (h : |z - k| < 1 / 2 ∨ (|z - k| = 1 / 2 ∧ Even k)) : roundEven z = k := by
  have hle : |z - k| ≤ 1 / 2 := by rcases h with h | h <;> [exact h.le; exact h.1.le]
  rw [abs_le] at hle
  unfold roundEven
  rcases le_or_gt (k : ℝ) z with hz | hz
  · have hfl : ⌊z⌋ = k := Int.floor_eq_iff.2 ⟨hz, by linarith⟩
    have hfr : Int.fract z = z - k := by rw [Int.fract, hfl]
    rw [abs_of_nonneg (by linarith)] at h
    rw [hfr, hfl]
    rcases h with h | ⟨h, he⟩
    · rw [if_pos h]
    · rw [if_neg (by linarith), if_neg (by linarith), if_pos he]
  · have hfl : ⌊z⌋ = k - 1 := Int.floor_eq_iff.2 ⟨by push_cast; linarith, by push_cast; linarith⟩
    have hfr : Int.fract z = z - k + 1 := by rw [Int.fract, hfl]; push_cast; ring
    rw [abs_of_neg (by linarith)] at h
    rw [hfr, hfl]
    rcases h with h | ⟨h, he⟩
    · rw [if_neg (by linarith), if_pos (by linarith)]; omega
    · rw [if_neg (by linarith), if_neg (by linarith), if_neg]
      · omega
      · intro h'
        obtain ⟨a, ha⟩ := he
        obtain ⟨b, hb⟩ := h'
        omega

/-- Rounding to nearest, ties to even. -/
theorem binRound_near {x y : ℝ} (k L : ℤ) (h1 : (2 : ℝ) ^ L ≤ |x|) (h2 : |x| < (2 : ℝ) ^ (L + 1))
    (h3 : |x / 2 ^ (L + 1 - 53) - k| < 1 / 2 ∨ (|x / 2 ^ (L + 1 - 53) - k| = 1 / 2 ∧ Even k))
    (hy : y = k * 2 ^ (L + 1 - 53)) : binRound 53 x = y := by
  have hx0 : 0 < |x| := lt_of_lt_of_le (by positivity) h1
  have hlog : Int.log 2 |x| = L := by
    apply le_antisymm
    · have := (Int.lt_zpow_iff_log_lt (b := 2) (by norm_num) hx0 (x := L + 1)).1 (by exact_mod_cast h2)
      omega
    · exact (Int.zpow_le_iff_le_log (b := 2) (by norm_num) hx0).1 (by exact_mod_cast h1)
  unfold binRound
  rw [hlog, hy]
  push_cast
  congr 1
  norm_cast
  exact_mod_cast roundEven_near h3

local notation "𝔻" => Rnd StdModel.double

/-- `unrolled_dot` on at most two pairs. -/
theorem dblDots : ShortDots 𝔻 := by
  have h0 : binRound 53 0 = 0 := by simp [binRound, roundEven]
  have h8 : ∀ l : List (ℝ × ℝ), (DotPlan.fold8 0).rval (binRound 53) l = 0 := fun l => by
    simp [DotPlan.fold8, DotPlan.acc, DotPlan.seq, DotPlan.rval, DotPlan.eval, h0]
  have p1 : DotPlans.unrolled.plan 1 = .add (.fold8 0) (.prod 0) := rfl
  have p2 : DotPlans.unrolled.plan 2 = .add (.add (.fold8 0) (.prod 0)) (.prod 1) := rfl
  have a : ∀ s t l, (DotPlan.add s t).rval (binRound 53) l =
    binRound 53 (s.rval (binRound 53) l + t.rval (binRound 53) l) := fun _ _ _ => rfl
  have p : ∀ k l, (DotPlan.prod k).rval (binRound 53) l =
    binRound 53 ((l.getD k (0, 0)).1 * (l.getD k (0, 0)).2) := fun _ _ => rfl
  have hd : ∀ n (f g : Nat → 𝔻), (dotTo n f g).v = (DotPlans.unrolled.plan
      (((List.range n).map fun k => (f k, g k)).map fun p => (p.1.v, p.2.v)).length).rval (binRound 53)
      (((List.range n).map fun k => (f k, g k)).map fun p => (p.1.v, p.2.v)) := fun _ _ _ => rfl
  have hr : ∀ x, StdModel.double.rnd x = binRound 53 x := fun _ => rfl
  constructor
  · intro f g
    apply Rnd.ext
    rw [hd, List.length_map, List.length_map, List.length_range, p1, a, h8, p, Rnd.add_v, Rnd.mul_v, hr, hr]
    simp [List.range_succ]
  · intro f g
    apply Rnd.ext
    rw [hd, List.length_map, List.length_map, List.length_range, p2, a, a, h8, p, p, Rnd.add_v, Rnd.add_v,
      Rnd.mul_v, Rnd.mul_v, hr, hr, hr, hr]
    simp [List.range_succ]

theorem two_dbl : (NdFloat.ofRat 2 : 𝔻) = ⟨2⟩ := Rnd.ext (binRound_exact 2 0 (by norm_num) (by norm_num) (by norm_num))
theorem neg_two_dbl : (NdFloat.ofRat (-2) : 𝔻) = ⟨-2⟩ :=
  Rnd.ext (binRound_exact (-2) 0 (by norm_num) (by norm_num) (by norm_num))
theorem half_dbl : (NdFloat.ofRat (1 / 2) : 𝔻) = ⟨1 / 2⟩ :=
  Rnd.ext (binRound_exact 1 (-1) (by norm_num) (by norm_num) (by norm_num))

theorem exSqrt {x : ℝ} (k e : ℤ) (hx : 0 ≤ x) (hk : |k| < 2 ^ 53) (h : x = k * 2 ^ e) {y : ℝ} (hy : y = x * x) :
    (NdFloat.sqrt ⟨y⟩ : 𝔻) = ⟨x⟩ :=
  Rnd.ext (binRound_exact k e hk (by rw [hy, Real.sqrt_mul_self hx, h]) (by rw [hy, Real.sqrt_mul_self hx]))

/-- `[[-1, 3 u], [3 u, 5/16 + u]]` with the unit roundoff `u = 2⁻⁵³` of double precision. -/
noncomputable def exDbl : Arr2 𝔻 :=
  ⟨2, 2, fun i j => ⟨(ofRows 2 2 [[-1, 3 / 2 ^ 53], [3 / 2 ^ 53, 5 / 16 + 1 / 2 ^ 53]]).get i j⟩⟩

local macro "exr" k:term:max e:term:max : term =>
  `(Rnd.ext (binRound_exact $k $e (by norm_num) (by norm_num) (by norm_num)))

theorem exDbl_tri (g : Nat → Nat → 𝔻) (h00 : g 0 0 = ⟨-1⟩) (h10 : g 1 0 = ⟨3 / 2 ^ 53⟩)
    (h11 : g 1 1 = ⟨5 / 16 + 1 / 2 ^ 53⟩) :
    ∃ t q, symTridiagonal ⟨2, 2, g⟩ = .ok t ∧ t.diagMatrix.nr = 2 ∧ t.diagMatrix.nc = 2 ∧ t.offDiagonal.len = 1 ∧
      t.diagMatrix.get 0 0 = ⟨-1⟩ ∧ t.diagMatrix.get 1 1 = ⟨5 / 16 + 1 / 2 ^ 53⟩ ∧
      t.offDiagonal.get 0 = -⟨3 / 2 ^ 53⟩ ∧ t.generateQ = .ok q ∧ HasShape q 2 2 ∧ q.get 0 0 = 1 ∧ q.get 0 1 = 0 ∧
      q.get 1 0 = 0 ∧ q.get 1 1 = 1 := by
  obtain ⟨t, h1, h2, h3, h4, h5, h6, h7, h8⟩ := tri2 dblDots g (oo := ⟨9 / 2 ^ 106⟩) (o2 := ⟨6 / 2 ^ 53⟩) (o3 := ⟨18 / 2 ^ 106⟩)
    (o4 := ⟨36 / 2 ^ 106⟩) (e := ⟨10 / 16 + 2 / 2 ^ 53⟩) (e' := ⟨-(10 / 16 + 2 / 2 ^ 53)⟩)
    (n1 := ⟨-(5 / 16 + 1 / 2 ^ 53)⟩) (n3 := ⟨-(15 / 16 + 3 / 2 ^ 53)⟩) (f := ⟨20 / 16 + 4 / 2 ^ 53⟩) h00 h10 h11
    (exr 9 (-106)) (exr 9 (-106)) (exSqrt 3 (-53) (by norm_num) (by norm_num) (by norm_num) (by norm_num))
    (Rnd.ext (by rw [Rnd.signum_v, if_neg (by norm_num), Rnd.one_v])) (exr 3 (-53))
    (Rnd.ext (by rw [Rnd.mul_v, Rnd.abs_v]; exact binRound_exact 9 (-106) (by norm_num) (by norm_num) (by norm_num)))
    (exr 18 (-106)) (by rw [two_dbl]; exact exr 36 (-106)) (by norm_num)
    (exSqrt 6 (-53) (by norm_num) (by norm_num) (by norm_num) (by norm_num)) (exr 6 (-53)) (exr 1 0)
    (exr (5 * 2 ^ 49 + 1) (-53)) (exr (5 * 2 ^ 49 + 1) (-53)) (by rw [two_dbl]; exact exr (5 * 2 ^ 49 + 1) (-52))
    (exr (5 * 2 ^ 49 + 1) (-52)) (exr (5 * 2 ^ 49 + 1) (-52)) (exr (5 * 2 ^ 49 + 1) (-52))
    (exr (-(5 * 2 ^ 49 + 1)) (-52)) (exr (-(5 * 2 ^ 49 + 1)) (-53)) (exr (-(15 * 2 ^ 49 + 3)) (-53))
    (exr (5 * 2 ^ 49 + 1) (-51)) (exr 1 0) (exr (5 * 2 ^ 49 + 1) (-51)) (exr (5 * 2 ^ 49 + 1) (-53))
  obtain ⟨q, q1, q2, q3, q4, q5, q6⟩ := LinfaLinalg.q2 dblDots t (k := ⟨-2⟩) h2 h3 h4 h7 h8
    (Rnd.ext (by rw [Rnd.signum_v, if_pos (by norm_num), Rnd.neg_v, Rnd.one_v])) (exr 0 0) (exr 1 0) (exr 0 0)
    (exr 1 0) (exr 0 0) (exr 1 0) (by rw [neg_two_dbl]; exact exr 0 0) (by rw [neg_two_dbl]; exact exr (-2) 0)
    (exr 0 0) (exr (-2) 0) (exr (-1) 0) (exr 0 0) (exr 1 0)
  exact ⟨t, q, h1, h2, h3, h4, h5, h6, h8, q1, q2, q3, q4, q5, q6⟩

theorem exDbl_eigvals : compute2x2Eigvals (⟨-1⟩ : 𝔻) ⟨3 / 2 ^ 53⟩ ⟨3 / 2 ^ 53⟩ ⟨5 / 16 + 1 / 2 ^ 53⟩ =
    some (⟨5 / 16 + 1 / 2 ^ 54⟩, ⟨-(11 / 32) + 1 / 2 ^ 54⟩ - ⟨21 / 32⟩) := by
  have e1 : (⟨-1⟩ : 𝔻) - ⟨5 / 16 + 1 / 2 ^ 53⟩ = ⟨-(21 / 16)⟩ :=
    Rnd.ext (binRound_near (-(21 * 2 ^ 48)) 0 (by rw [abs_of_neg (by norm_num)]; norm_num)
      (by rw [abs_of_neg (by norm_num)]; norm_num)
      (Or.inr ⟨by rw [abs_of_neg (by norm_num)]; norm_num, by decide⟩) (by norm_num))
  have e2 : (⟨-(21 / 16)⟩ : 𝔻) * ⟨1 / 2⟩ = ⟨-(21 / 32)⟩ := exr (-21) (-5)
  have e3 : (⟨3 / 2 ^ 53⟩ : 𝔻) * ⟨3 / 2 ^ 53⟩ = ⟨9 / 2 ^ 106⟩ := exr 9 (-106)
  have e4 : (⟨-(21 / 32)⟩ : 𝔻) * ⟨-(21 / 32)⟩ = ⟨441 / 1024⟩ := exr 441 (-10)
  have e5 : (⟨9 / 2 ^ 106⟩ : 𝔻) + ⟨441 / 1024⟩ = ⟨441 / 1024⟩ :=
    Rnd.ext (binRound_near (441 * 2 ^ 44) (-2) (by rw [abs_of_pos (by norm_num)]; norm_num)
      (by rw [abs_of_pos (by norm_num)]; norm_num)
      (Or.inl (by rw [abs_of_pos (by norm_num)]; norm_num)) (by norm_num))
  have e6 : (NdFloat.sqrt ⟨441 / 1024⟩ : 𝔻) = ⟨21 / 32⟩ :=
    exSqrt 21 (-5) (by norm_num) (by norm_num) (by norm_num) (by norm_num)
  have e7 : (⟨-1⟩ : 𝔻) + ⟨5 / 16 + 1 / 2 ^ 53⟩ = ⟨-(11 / 16) + 1 / 2 ^ 53⟩ := exr (-(11 * 2 ^ 49 - 1)) (-53)
  have e8 : (⟨-(11 / 16) + 1 / 2 ^ 53⟩ : 𝔻) * ⟨1 / 2⟩ = ⟨-(11 / 32) + 1 / 2 ^ 54⟩ := exr (-(11 * 2 ^ 49 - 1)) (-54)
  have e9 : (⟨-(11 / 32) + 1 / 2 ^ 54⟩ : 𝔻) + ⟨21 / 32⟩ = ⟨5 / 16 + 1 / 2 ^ 54⟩ := exr (5 * 2 ^ 50 + 1) (-54)
  unfold compute2x2Eigvals
  simp only [half_dbl, e1, e2, e3, e4, e5, e6, e7, e8, e9]
  rw [if_pos (by norm_num)]

theorem dbl_err (z : ℝ) : |StdModel.double.rnd z - z| ≤ 1 / 2 ^ 53 * |z| := by
  have := StdModel.double.rnd_err z
  norm_num [StdModel.double] at this ⊢
  exact this

theorem dbl_pos {z a b : ℝ} (ha : 0 ≤ a) (h1 : a ≤ z) (h2 : z ≤ b) :
    a * (1 - 1 / 2 ^ 53) ≤ StdModel.double.rnd z ∧ StdModel.double.rnd z ≤ b * (1 + 1 / 2 ^ 53) := by
  have h := dbl_err z
  rw [abs_of_nonneg (ha.trans h1 : 0 ≤ z), abs_le] at h
  constructor <;> nlinarith

theorem dbl_neg {z a b : ℝ} (ha : 0 ≤ a) (h1 : a ≤ -z) (h2 : -z ≤ b) :
    a * (1 - 1 / 2 ^ 53) ≤ -StdModel.double.rnd z ∧ -StdModel.double.rnd z ≤ b * (1 + 1 / 2 ^ 53) := by
  have h := dbl_err z
  rw [abs_of_nonpos (by linarith : z ≤ 0), abs_le] at h
  constructor <;> nlinarith

theorem dbl_zero : StdModel.double.rnd 0 = 0 := by
  have := dbl_err 0
  simpa using this

/-- The run of `eigh` on `exDbl`. -/
theorem exDbl_run (fuel : Nat) : ∃ vals q, eigh (fuel + 1) exDbl = .ok (vals, q) ∧ HasShape q 2 2 ∧ vals.len = 2 ∧
    (vals.get 0).v = 5 / 16 + 1 / 2 ^ 54 ∧ 164 / 1000 ≤ -(q.get 0 0).v ∧ -(q.get 0 0).v ≤ 165 / 1000 ∧
    986 / 1000 ≤ (q.get 1 0).v ∧ (q.get 1 0).v ≤ 987 / 1000 := by
  have hmax : exDbl.amax = 1 := by
    apply Rnd.ext
    simp only [Arr2.amax, Arr2.toList, exDbl, ofRows, List.range_succ, List.range_zero]
    simp
    rw [abs_of_pos (by norm_num : (0 : ℝ) < 3 / 2 ^ 53), abs_of_pos (by norm_num : (0 : ℝ) < 5 / 16 + (2 ^ 53)⁻¹)]
    norm_num
    exact (by norm_num : (-1 : ℝ) ≤ 1)
  have hsd : exDbl.scaleDown exDbl.amax = ⟨2, 2, fun i j => exDbl.get i j / 1⟩ := by
    rw [hmax]
    unfold Arr2.scaleDown
    rw [if_neg (by simp)]
    rfl
  obtain ⟨t, q, ht, t1, t2, t3, t4, t5, t6, hq, q1, q2, q3, q4, q5⟩ := exDbl_tri (fun i j => exDbl.get i j / 1)
    (Rnd.ext (binRound_exact (-1) 0 (by norm_num) (by simp [exDbl, ofRows]) (by simp [exDbl, ofRows])))
    (Rnd.ext (binRound_exact 3 (-53) (by norm_num) (by norm_num [exDbl, ofRows]) (by norm_num [exDbl, ofRows])))
    (Rnd.ext (binRound_exact (5 * 2 ^ 49 + 1) (-53) (by norm_num) (by norm_num [exDbl, ofRows])
      (by norm_num [exDbl, ofRows])))
  have hn : 3041 / 1000 / 2 ^ 53 ≤ StdModel.double.hyp (-(1 / 2 ^ 54)) (3 / 2 ^ 53) ∧
      StdModel.double.hyp (-(1 / 2 ^ 54)) (3 / 2 ^ 53) ≤ 3042 / 1000 / 2 ^ 53 := by
    have := dbl_pos (z := √(-(1 / 2 ^ 54) * -(1 / 2 ^ 54) + 3 / 2 ^ 53 * (3 / 2 ^ 53))) (a := 30412 / 10000 / 2 ^ 53)
      (b := 30416 / 10000 / 2 ^ 53) (by norm_num) (Real.le_sqrt_of_sq_le (by norm_num))
      (by rw [Real.sqrt_le_left (by norm_num)]; norm_num)
    constructor
    · refine le_trans ?_ this.1; norm_num
    · refine le_trans this.2 ?_; norm_num
  obtain ⟨off, s, e, st, q', hdel, hloop, hsq, hl, l0, l1, hs', v0, v1⟩ := loop2 fuel t.intoDiagonals.1 t.intoDiagonals.2 q
    (NdFloat.epsilon : 𝔻) (d0 := ⟨-1⟩) (o0 := ⟨3 / 2 ^ 53⟩) (d1 := ⟨5 / 16 + 1 / 2 ^ 53⟩)
    (x := ⟨-(1 / 2 ^ 54)⟩) (norm := ⟨StdModel.double.hyp (-(1 / 2 ^ 54)) (3 / 2 ^ 53)⟩)
    (by simp [TridiagonalDecomp.intoDiagonals, Arr2.diag, t1, t2]) t3 q1 t4 t5
    (by simp only [TridiagonalDecomp.intoDiagonals, Arr1.map, t6]
        exact Rnd.ext (by rw [Rnd.abs_v, Rnd.neg_v, abs_neg, abs_of_pos (by norm_num)]))
    (by
      rw [Rnd.lt_v, decide_eq_true_eq, Rnd.mul_v, Rnd.add_v, Rnd.abs_v, Rnd.abs_v, Rnd.abs_v]
      have h1 := dbl_pos (z := |(5 / 16 + 1 / 2 ^ 53 : ℝ)| + |(-1 : ℝ)|) (a := 1) (b := 132 / 100) (by norm_num)
        (by rw [abs_of_pos (by norm_num)]; norm_num) (by rw [abs_of_pos (by norm_num)]; norm_num)
      have h2 := dbl_pos (z := (2 : ℝ)⁻¹ ^ 52 * StdModel.double.rnd (|(5 / 16 + 1 / 2 ^ 53 : ℝ)| + |(-1 : ℝ)|)) (a := 0)
        (b := (2 : ℝ)⁻¹ ^ 52 * (14 / 10)) le_rfl (mul_nonneg (by norm_num) (by norm_num at h1 ⊢; linarith))
        (mul_le_mul_of_nonneg_left (by norm_num at h1 ⊢; linarith) (by norm_num))
      refine lt_of_le_of_lt h2.2 ?_
      norm_num)
    exDbl_eigvals (Rnd.ext (binRound_exact (-1) (-54) (by norm_num) (by norm_num) (by norm_num))) rfl
    (by
      rw [Rnd.lt_v, decide_eq_true_eq]
      refine lt_of_lt_of_le ?_ hn.1
      show (2 : ℝ)⁻¹ ^ 52 < _
      norm_num)
  refine ⟨st.diag.map fun x => x * 1, q', ?_, hs', hl, ?_, ?_⟩
  · unfold eigh eighInto symmetricEig
    rw [checkSquare_ok rfl]
    simp only [ok_bind]
    rw [if_neg (by simp [exDbl]), hsd, ht]
    simp only [ok_bind, if_true]
    rw [hq]
    simp only [ok_bind]
    rw [if_neg (by simp [exDbl])]
    rw [show exDbl.nr - 1 = 1 from rfl, hdel]
    simp only [ok_bind]
    rw [hloop]
    simp only [ok_bind, hsq, hmax]
  · simp only [Arr1.map, l0]
    exact binRound_exact (5 * 2 ^ 50 + 1) (-54) (by norm_num) (by norm_num) (by norm_num)
  · rw [v0, v1, q2, q3, q4, q5]
    simp only [Rnd.add_v, Rnd.mul_v, Rnd.div_v, Rnd.one_v, Rnd.zero_v, one_mul, zero_mul, mul_zero, dbl_zero, mul_one,
      add_zero, zero_add]
    set N := StdModel.double.hyp (-(1 / 2 ^ 54)) (3 / 2 ^ 53) with hN
    have hN0 : 0 < N := lt_of_lt_of_le (by norm_num) hn.1
    have c1 := dbl_neg (z := -(1 / 2 ^ 54) / N) (a := 1643 / 10000) (b := 1645 / 10000) (by norm_num)
      (by rw [neg_div, neg_neg, le_div_iff₀ hN0]; norm_num at hn ⊢; linarith)
      (by rw [neg_div, neg_neg, div_le_iff₀ hN0]; norm_num at hn ⊢; linarith)
    have c2 := dbl_neg (z := StdModel.double.rnd (-(1 / 2 ^ 54) / N)) (a := 1642 / 10000) (b := 1646 / 10000) (by norm_num)
      (le_trans (by norm_num) c1.1) (le_trans c1.2 (by norm_num))
    have c3 := dbl_neg (z := StdModel.double.rnd (StdModel.double.rnd (-(1 / 2 ^ 54) / N))) (a := 1641 / 10000)
      (b := 1647 / 10000) (by norm_num) (le_trans (by norm_num) c2.1) (le_trans c2.2 (by norm_num))
    have s1 := dbl_pos (z := 3 / 2 ^ 53 / N) (a := 9861 / 10000) (b := 9866 / 10000) (by norm_num)
      (by rw [le_div_iff₀ hN0]; norm_num at hn ⊢; linarith)
      (by rw [div_le_iff₀ hN0]; norm_num at hn ⊢; linarith)
    have s2 := dbl_pos (z := StdModel.double.rnd (3 / 2 ^ 53 / N)) (a := 98608 / 100000) (b := 98662 / 100000) (by norm_num)
      (le_trans (by norm_num) s1.1) (le_trans s1.2 (by norm_num))
    have s3 := dbl_pos (z := StdModel.double.rnd (StdModel.double.rnd (3 / 2 ^ 53 / N))) (a := 98606 / 100000)
      (b := 98664 / 100000) (by norm_num) (le_trans (by norm_num) s2.1) (le_trans s2.2 (by norm_num))
    refine ⟨le_trans (by norm_num) c3.1, le_trans c3.2 (by norm_num), le_trans (by norm_num) s3.1,
      le_trans s3.2 (by norm_num)⟩

/-! ## A run that keeps its vectors -/

/-- `[[1, 1/2], [1/2, 1]]` in double precision. -/
noncomputable def exDblGood : Arr2 𝔻 := ⟨2, 2, fun i j => ⟨(ofRows 2 2 [[1, 1 / 2], [1 / 2, 1]]).get i j⟩⟩

theorem exDblGood_tri : exDblGood.amax = 1 ∧ ∃ t q, symTridiagonal (exDblGood.scaleDown exDblGood.amax) = .ok t ∧
    t.diagMatrix.nr = 2 ∧ t.diagMatrix.nc = 2 ∧ t.offDiagonal.len = 1 ∧ t.diagMatrix.get 0 0 = ⟨1⟩ ∧
    t.diagMatrix.get 1 1 = ⟨1⟩ ∧ t.offDiagonal.get 0 = -⟨1 / 2⟩ ∧ t.generateQ = .ok q ∧ HasShape q 2 2 := by
  have hmax : exDblGood.amax = 1 := by
    apply Rnd.ext
    simp only [Arr2.amax, Arr2.toList, exDblGood, ofRows, List.range_succ, List.range_zero]
    simp
    have h : (NdFloat.negInf : 𝔻).v ≤ 1 := (by norm_num : (-1 : ℝ) ≤ 1)
    rw [max_eq_right h, max_eq_left (by norm_num)]
  have hsd : exDblGood.scaleDown exDblGood.amax = ⟨2, 2, fun i j => exDblGood.get i j / 1⟩ := by
    rw [hmax]
    unfold Arr2.scaleDown
    rw [if_neg (by simp)]
    rfl
  refine ⟨hmax, ?_⟩
  rw [hsd]
  obtain ⟨t, h1, h2, h3, h4, h5, h6, h7, h8⟩ := tri2 dblDots (fun i j => exDblGood.get i j / 1) (d0 := ⟨1⟩) (o := ⟨1 / 2⟩)
    (d1 := ⟨1⟩) (oo := ⟨1 / 4⟩) (o2 := ⟨1⟩) (o3 := ⟨1 / 2⟩)
    (o4 := ⟨1⟩) (e := ⟨2⟩) (e' := ⟨-2⟩)
    (n1 := ⟨-1⟩) (n3 := ⟨-3⟩) (f := ⟨4⟩)
    (Rnd.ext (binRound_exact 1 0 (by norm_num) (by simp [exDblGood, ofRows]) (by simp [exDblGood, ofRows])))
    (Rnd.ext (binRound_exact 1 (-1) (by norm_num) (by norm_num [exDblGood, ofRows]) (by norm_num [exDblGood, ofRows])))
    (Rnd.ext (binRound_exact 1 0 (by norm_num) (by simp [exDblGood, ofRows]) (by simp [exDblGood, ofRows])))
    (exr 1 (-2)) (exr 1 (-2)) (exSqrt 1 (-1) (by norm_num) (by norm_num) (by norm_num) (by norm_num))
    (Rnd.ext (by rw [Rnd.signum_v, if_neg (by norm_num), Rnd.one_v])) (exr 1 (-1))
    (Rnd.ext (by rw [Rnd.mul_v, Rnd.abs_v]; exact binRound_exact 1 (-2) (by norm_num) (by norm_num) (by norm_num)))
    (exr 1 (-1)) (by rw [two_dbl]; exact exr 1 0) (by norm_num)
    (exSqrt 1 0 (by norm_num) (by norm_num) (by norm_num) (by norm_num)) (exr 1 0) (exr 1 0)
    (exr 1 0) (exr 1 0) (by rw [two_dbl]; exact exr 2 0)
    (exr 2 0) (exr 2 0) (exr 2 0) (exr (-2) 0) (exr (-1) 0) (exr (-3) 0)
    (exr 4 0) (exr 1 0) (exr 4 0) (exr 1 0)
  obtain ⟨q, q1, q2, -⟩ := LinfaLinalg.q2 dblDots t (k := ⟨-2⟩) h2 h3 h4 h7 h8
    (Rnd.ext (by rw [Rnd.signum_v, if_pos (by norm_num), Rnd.neg_v, Rnd.one_v])) (exr 0 0) (exr 1 0) (exr 0 0)
    (exr 1 0) (exr 0 0) (exr 1 0) (by rw [neg_two_dbl]; exact exr 0 0) (by rw [neg_two_dbl]; exact exr (-2) 0)
    (exr 0 0) (exr (-2) 0) (exr (-1) 0) (exr 0 0) (exr 1 0)
  exact ⟨t, q, h1, h2, h3, h4, h5, h6, h8, q1, q2⟩

theorem exDblGood_eigvals : compute2x2Eigvals (⟨1⟩ : 𝔻) ⟨1 / 2⟩ ⟨1 / 2⟩ ⟨1⟩ = some (⟨3 / 2⟩, ⟨1 / 2⟩) := by
  have e1 : (⟨1⟩ : 𝔻) - ⟨1⟩ = ⟨0⟩ := exr 0 0
  have e2 : (⟨0⟩ : 𝔻) * ⟨1 / 2⟩ = ⟨0⟩ := exr 0 0
  have e3 : (⟨1 / 2⟩ : 𝔻) * ⟨1 / 2⟩ = ⟨1 / 4⟩ := exr 1 (-2)
  have e4 : (⟨0⟩ : 𝔻) * ⟨0⟩ = ⟨0⟩ := exr 0 0
  have e5 : (⟨1 / 4⟩ : 𝔻) + ⟨0⟩ = ⟨1 / 4⟩ := exr 1 (-2)
  have e6 : (NdFloat.sqrt ⟨1 / 4⟩ : 𝔻) = ⟨1 / 2⟩ :=
    exSqrt 1 (-1) (by norm_num) (by norm_num) (by norm_num) (by norm_num)
  have e7 : (⟨1⟩ : 𝔻) + ⟨1⟩ = ⟨2⟩ := exr 2 0
  have e8 : (⟨2⟩ : 𝔻) * ⟨1 / 2⟩ = ⟨1⟩ := exr 1 0
  have e9 : (⟨1⟩ : 𝔻) + ⟨1 / 2⟩ = ⟨3 / 2⟩ := exr 3 (-1)
  have e10 : (⟨1⟩ : 𝔻) - ⟨1 / 2⟩ = ⟨1 / 2⟩ := exr 1 (-1)
  unfold compute2x2Eigvals
  simp only [half_dbl, e1, e2, e3, e4, e5, e6, e7, e8, e9, e10]
  rw [if_pos (by norm_num)]

/-- The run of `eigh` on `exDblGood`. -/
theorem exDblGood_run (fuel : Nat) : ∃ vals q, eigh (fuel + 1) exDblGood = .ok (vals, q) := by
  obtain ⟨hmax, t, q, ht, t1, t2, t3, t4, t5, t6, hq, q1⟩ := exDblGood_tri
  have hn : 7 / 10 ≤ StdModel.double.hyp (1 / 2) (1 / 2) := by
    have := dbl_pos (z := √(1 / 2 * (1 / 2) + 1 / 2 * (1 / 2))) (a := 705 / 1000) (b := 1) (by norm_num)
      (Real.le_sqrt_of_sq_le (by norm_num)) (by rw [Real.sqrt_le_left (by norm_num)]; norm_num)
    refine le_trans ?_ this.1
    norm_num
  obtain ⟨off, s, e, st, q', hdel, hloop, hsq, -⟩ := loop2 fuel t.intoDiagonals.1 t.intoDiagonals.2 q
    (NdFloat.epsilon : 𝔻) (d0 := ⟨1⟩) (o0 := ⟨1 / 2⟩) (d1 := ⟨1⟩)
    (x := ⟨1 / 2⟩) (norm := ⟨StdModel.double.hyp (1 / 2) (1 / 2)⟩)
    (by simp [TridiagonalDecomp.intoDiagonals, Arr2.diag, t1, t2]) t3 q1 t4 t5
    (by simp only [TridiagonalDecomp.intoDiagonals, Arr1.map, t6]
        exact Rnd.ext (by rw [Rnd.abs_v, Rnd.neg_v, abs_neg, abs_of_pos (by norm_num)]))
    (by
      rw [Rnd.lt_v, decide_eq_true_eq, Rnd.mul_v, Rnd.add_v, Rnd.abs_v, Rnd.abs_v]
      have h1 := dbl_pos (z := |(1 : ℝ)| + |(1 : ℝ)|) (a := 1) (b := 2) (by norm_num) (by norm_num) (by norm_num)
      have h2 := dbl_pos (z := (2 : ℝ)⁻¹ ^ 52 * StdModel.double.rnd (|(1 : ℝ)| + |(1 : ℝ)|)) (a := 0)
        (b := (2 : ℝ)⁻¹ ^ 52 * 3) le_rfl (mul_nonneg (by norm_num) (by norm_num at h1 ⊢; linarith))
        (mul_le_mul_of_nonneg_left (by norm_num at h1 ⊢; linarith) (by norm_num))
      refine lt_of_le_of_lt h2.2 ?_
      rw [abs_of_pos (by norm_num)]
      norm_num)
    exDblGood_eigvals (Rnd.ext (binRound_exact 1 (-1) (by norm_num) (by norm_num) (by norm_num))) rfl
    (by
      rw [Rnd.lt_v, decide_eq_true_eq]
      refine lt_of_lt_of_le ?_ hn
      show (2 : ℝ)⁻¹ ^ 52 < _
      norm_num)
  refine ⟨st.diag.map fun x => x * exDblGood.amax, q', ?_⟩
  unfold eigh eighInto symmetricEig
  rw [checkSquare_ok rfl]
  simp only [ok_bind]
  rw [if_neg (by simp [exDblGood]), ht]
  simp only [ok_bind, if_true]
  rw [hq]
  simp only [ok_bind]
  rw [if_neg (by simp [exDblGood])]
  rw [show exDblGood.nr - 1 = 1 from rfl, hdel]
  simp only [ok_bind]
  rw [hloop]
  simp only [ok_bind, hsq]

end LinfaLinalg
