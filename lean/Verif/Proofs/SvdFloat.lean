import Verif.Proofs.EighFloat
import Verif.Proofs.Svd
set_option linter.unusedSimpArgs false
set_option linter.unusedSectionVars false
/-! # `svd` evaluated in double precision -/

namespace LinfaLinalg

open Matrix

variable {α : Type} [Zero α] [One α] [Add α] [Sub α] [Mul α] [Div α] [Neg α] [NdFloat α]

/-- `bidiagonal` of an upper triangular `2 × 2` matrix, the results of the operations being given. -/
theorem bidiag2 (hD : ShortDots α) (g : Nat → Nat → α) (P : α → Prop) {a d aa a2 a3 a4 t2 t4 dd dd3 dd4 d2 d2' tn : α} (h00 : g 0 0 = a) (h01 : g 0 1 = 1) (h10 : g 1 0 = 0)
    (h11 : g 1 1 = d) 
    (z1 : (0 : α) * 0 = 0) (z2 : ∀ x : α, P x → 0 + x = x) (z3 : ∀ x : α, P x → x + 0 = x) (z4 : ∀ x : α, P x → 1 * x = x)
    (z5 : ∀ x : α, 0 * x = 0) (z6 : ∀ x : α, P x → x - 0 = x) (z7 : ∀ x : α, x * 0 = 0) (z8 : ∀ x : α, P x → x * 1 = x)
    (z9 : ∀ x : α, 0 / x = 0)
    (p1 : P 1) (pa : P a) (pd : P d) (pnd : P (-d)) (paa : P aa) (pdd : P dd) (ptn : P tn) (pd2 : P d2)
    (a1 : a * a = aa) (a2' : NdFloat.sqrt aa = a) (a3' : NdFloat.signum a = 1) (a4' : NdFloat.abs a * a = aa) (a5 : aa + aa = a3)
    (a6 : a3 * NdFloat.ofRat 2 = a4) (a7 : NdFloat.isZero a4 = false) (a8 : NdFloat.sqrt a4 = a2) (a9 : a + a = a2)
    (a10 : a2 / a2 = 1) (a11 : NdFloat.signum (-a) = -1) (b1 : NdFloat.ofRat (-2) = tn) (b2 : 1 + tn = -1) (b3 : (-1 : α) * -1 = 1)
    (b4 : NdFloat.sqrt (1 : α) = 1) (b5 : NdFloat.signum (1 : α) = 1) (b6 : (1 : α) + 1 = t2) (b7 : NdFloat.abs (1 : α) = 1)
    (b8 : t2 * NdFloat.ofRat 2 = t4) (b9 : NdFloat.isZero t4 = false) (b10 : NdFloat.sqrt t4 = t2) (b11 : t2 / t2 = 1)
    (b12 : NdFloat.signum (-1 : α) = -1) (c1 : d * -1 = -d) (c2 : -d * tn = d2) (c3 : -d + d2 = d)
    (c4 : -d * -d = dd) (c5 : NdFloat.sqrt dd = d) (c6 : NdFloat.signum (-d) = -1) (c7 : -1 * d = -d)
    (c8 : -d + -d = d2') (c9 : NdFloat.abs (-d) * d = dd) (c10 : dd + dd = dd3) (c11 : dd3 * NdFloat.ofRat 2 = dd4)
    (c12 : NdFloat.isZero dd4 = false) :
    ∃ t, bidiagonal ⟨2, 2, g⟩ = .ok t ∧ t.upperDiag = true ∧ t.uv.nr = 2 ∧ t.uv.nc = 2 ∧ t.diagonal.len = 2 ∧ t.offDiagonal.len = 1 ∧
      t.diagonal.get 0 = -a ∧ t.diagonal.get 1 = -(-d) ∧ t.offDiagonal.get 0 = -1 := by
  unfold bidiagonal
  simp [forRange, List.range', loopM, clearColumn, clearRow, Arr2.t, Arr2.colSlice, Arr2.slice, reflectionAxisMut, reflectCols,
    ok_bind, Arr1.dot, hD.one, hD.two, Arr1.idx, Arr1.idxSet, Arr1.upd, Arr1.scaledAdd, Arr2.map,
    Arr2.putCol, h00, h10, h11, h01, Arr1.zeros, Arr1.map, Arr1.slice, Arr1.put, Arr2.put, z1, z2, z3, z4, z5, z6, z7, z8, z9, p1, pa, pd, pnd, paa, pdd, ptn, pd2, a1, a2', a3', a4', a5, a6, a7, a8, a9, a10, a11, b1, b2, b3, b4, b5, b6, b7, b8, b9, b10, b11, b12, c1, c2, c3, c4, c5, c6, c7, c8, c9, c10, c11, c12]

/-- `delimit_subproblem` on a `2 × 2` block that is not deflated. -/
theorem svdDelimit2 (d o : Arr1 α) (u vt : Option (Arr2 α)) (eps : α) {d0 o0 d1 : α} (hd : d.len = 2) (ho : o.len = 1)
    (h0 : d.get 0 = d0) (h1 : d.get 1 = d1) (ho0 : o.get 0 = o0)
    (a0 : NdFloat.isZero o0 = false)
    (a1 : NdFloat.le (NdFloat.abs o0) (eps * (NdFloat.abs d1 + NdFloat.abs d0)) = false)
    (a2 : NdFloat.le (NdFloat.abs d0) eps = false) (a3 : NdFloat.le (NdFloat.abs d1) eps = false) :
    svdDelimit true 1 eps ⟨d, o, u, vt⟩ = .ok (⟨d, o, u, vt⟩, 0, 1) := by
  simp [svdDelimit, svdDelimitEnd, svdDelimitStart, Arr1.at, hd, ho, h0, h1, ho0, ok_bind, a0, a1, a2, a3]

/-- The main loop of `svd` on a `2 × 2` block that is not deflated. -/
theorem svdLoop2 (fuel : Nat) (d o : Arr1 α) (u vt : Arr2 α) (eps : α) {d0 o0 d1 l0 l1 : α} {ru rv : GivensRotation α} (hd : d.len = 2) (ho : o.len = 1)
    (hu : HasShape u 2 2) (hv : HasShape vt 2 2) (h0 : d.get 0 = d0) (h1 : d.get 1 = d1) (ho0 : o.get 0 = o0)
    (a0 : NdFloat.isZero o0 = false)
    (a1 : NdFloat.le (NdFloat.abs o0) (eps * (NdFloat.abs d1 + NdFloat.abs d0)) = false)
    (a2 : NdFloat.le (NdFloat.abs d0) eps = false) (a3 : NdFloat.le (NdFloat.abs d1) eps = false)
    (a4 : compute2x2UptrigSvd d0 o0 d1 true true = (l0, l1, some ru, some rv)) :
    ∃ s e s' st, svdDelimit true 1 eps ⟨d, o, some u, some vt⟩ = .ok (s, e, s') ∧
      svdLoop true true true eps (fuel + 1) ⟨s, e, s'⟩ = .ok st ∧ st.s.diag.len = 2 ∧ st.s.diag.get 0 = l0 ∧
      st.s.diag.get 1 = l1 ∧ ∃ u', st.s.u = some u' ∧ HasShape u' 2 2 := by
  have hdel : svdDelimit true 1 eps ⟨d, o, some u, some vt⟩ = .ok (⟨d, o, some u, some vt⟩, 0, 1) :=
    svdDelimit2 d o (some u) (some vt) eps hd ho h0 h1 ho0 a0 a1 a2 a3
  refine ⟨⟨d, o, some u, some vt⟩, 0, 1, ?_⟩
  obtain ⟨u1, u2⟩ := hu
  obtain ⟨v1, v2⟩ := hv
  rw [hdel]
  unfold svdLoop
  simp [svdStep, svd2x2, hd, ho, h0, h1, ho0, Arr1.at, Arr1.atm, Arr1.upd, ok_bind, a4, svdRotU, svdRotVt, rotateUCols, rotateVtRows,
    Arr2.colsStep, Arr2.t, u1, u2, v1, v2, GivensRotation.rotateRows, GivensRotation.rotateCols, forRange, loopM, List.range', unwrapM,
    Arr2.at, Arr2.atm, Arr2.put, Arr2.upd, svdDelimit, svdDelimitEnd]
  cases fuel <;> simp [svdLoop, HasShape, Arr2.putColsStep, u1, u2]
local notation "𝔻" => Rnd StdModel.double

local macro "exr" k:term:max e:term:max : term =>
  `(Rnd.ext (binRound_exact $k $e (by norm_num) (by norm_num) (by norm_num)))

/-- `[[3/4, 1], [0, 25/2 u]]` with the unit roundoff `u = 2⁻⁵³` of double precision. -/
noncomputable def exSvd : Arr2 𝔻 :=
  ⟨2, 2, fun i j => ⟨(ofRows 2 2 [[3 / 4, 1], [0, 25 / 2 ^ 54]]).get i j⟩⟩

/-- The doubles. -/
def IsDbl (x : 𝔻) : Prop := StdModel.double.rnd x.v = x.v

theorem isDbl {x : ℝ} (k e : ℤ) (hk : |k| < 2 ^ 53) (hx : x = k * 2 ^ e) : IsDbl ⟨x⟩ := binRound_exact k e hk hx rfl

theorem exSvd_bidiag (g : Nat → Nat → 𝔻) (h00 : g 0 0 = ⟨3 / 4⟩) (h01 : g 0 1 = 1) (h10 : g 1 0 = 0)
    (h11 : g 1 1 = ⟨25 / 2 ^ 54⟩) :
    ∃ t, bidiagonal ⟨2, 2, g⟩ = .ok t ∧ t.upperDiag = true ∧ t.uv.nr = 2 ∧ t.uv.nc = 2 ∧ t.diagonal.len = 2 ∧
      t.offDiagonal.len = 1 ∧ t.diagonal.get 0 = -⟨3 / 4⟩ ∧ t.diagonal.get 1 = -(-⟨25 / 2 ^ 54⟩) ∧
      t.offDiagonal.get 0 = -1 := by
  refine bidiag2 dblDots g IsDbl (a := ⟨3 / 4⟩) (d := ⟨25 / 2 ^ 54⟩) (aa := ⟨9 / 16⟩) (a2 := ⟨3 / 2⟩) (a3 := ⟨9 / 8⟩)
    (a4 := ⟨9 / 4⟩) (t2 := ⟨2⟩) (t4 := ⟨4⟩) (dd := ⟨625 / 2 ^ 108⟩) (dd3 := ⟨1250 / 2 ^ 108⟩) (dd4 := ⟨2500 / 2 ^ 108⟩)
    (d2 := ⟨50 / 2 ^ 54⟩) (d2' := ⟨-(50 / 2 ^ 54)⟩) (tn := ⟨-2⟩) h00 h01 h10 h11
    (exr 0 0) (fun x h => Rnd.ext (by simpa [IsDbl] using h)) (fun x h => Rnd.ext (by simpa [IsDbl] using h))
    (fun x h => Rnd.ext (by simpa [IsDbl] using h)) (fun x => Rnd.ext (by simp [dbl_zero]))
    (fun x h => Rnd.ext (by simpa [IsDbl] using h)) (fun x => Rnd.ext (by simp [dbl_zero]))
    (fun x h => Rnd.ext (by simpa [IsDbl] using h)) (fun x => Rnd.ext (by simp [dbl_zero]))
    (isDbl 1 0 (by norm_num) (by norm_num)) (isDbl 3 (-2) (by norm_num) (by norm_num))
    (isDbl 25 (-54) (by norm_num) (by norm_num)) (isDbl (-25) (-54) (by norm_num) (by norm_num))
    (isDbl 9 (-4) (by norm_num) (by norm_num)) (isDbl 625 (-108) (by norm_num) (by norm_num))
    (isDbl (-2) 0 (by norm_num) (by norm_num)) (isDbl 50 (-54) (by norm_num) (by norm_num))
    (exr 9 (-4)) (exSqrt 3 (-2) (by norm_num) (by norm_num) (by norm_num) (by norm_num))
    (Rnd.ext (by rw [Rnd.signum_v, if_neg (by norm_num), Rnd.one_v]))
    (Rnd.ext (by
      rw [Rnd.mul_v, Rnd.abs_v, abs_of_pos (by norm_num)]
      exact binRound_exact 9 (-4) (by norm_num) (by norm_num) (by norm_num)))
    (exr 9 (-3)) (by rw [two_dbl]; exact exr 9 (-2)) (by norm_num)
    (exSqrt 3 (-1) (by norm_num) (by norm_num) (by norm_num) (by norm_num)) (exr 3 (-1)) (exr 1 0)
    (Rnd.ext (by rw [Rnd.signum_v, if_pos (by norm_num), Rnd.neg_v, Rnd.one_v])) neg_two_dbl (exr (-1) 0) (exr 1 0)
    (exSqrt 1 0 (by norm_num) (by norm_num) (by norm_num) (by norm_num))
    (Rnd.ext (by rw [Rnd.signum_v, if_neg (by norm_num), Rnd.one_v])) (exr 2 0)
    (Rnd.ext (by simp)) (by rw [two_dbl]; exact exr 4 0) (by norm_num)
    (exSqrt 2 0 (by norm_num) (by norm_num) (by norm_num) (by norm_num)) (exr 1 0)
    (Rnd.ext (by rw [Rnd.signum_v, if_pos (by norm_num), Rnd.neg_v, Rnd.one_v]))
    (exr (-25) (-54)) (exr 50 (-54)) (exr 25 (-54)) (exr 625 (-108))
    (exSqrt 25 (-54) (by norm_num) (by norm_num) (by norm_num) (by norm_num))
    (Rnd.ext (by rw [Rnd.signum_v, if_pos (by norm_num), Rnd.neg_v, Rnd.one_v]))
    (exr (-25) (-54)) (exr (-50) (-54))
    (Rnd.ext (by
      rw [Rnd.mul_v, Rnd.abs_v, Rnd.neg_v, abs_neg, abs_of_pos (by norm_num)]
      exact binRound_exact 625 (-108) (by norm_num) (by norm_num) (by norm_num)))
    (exr 1250 (-108)) (by rw [two_dbl]; exact exr 2500 (-108)) (by norm_num)

/-- Rounding a square root. -/
theorem near_sqrt {x : ℝ} (k L : ℤ) (h0 : 0 < k) (h1 : (2 : ℝ) ^ L ≤ ((k : ℝ) - 1 / 2) * 2 ^ (L + 1 - 53))
    (h2 : ((k : ℝ) + 1 / 2) * 2 ^ (L + 1 - 53) < (2 : ℝ) ^ (L + 1))
    (h3 : (((k : ℝ) - 1 / 2) * 2 ^ (L + 1 - 53)) ^ 2 < x) (h4 : x < (((k : ℝ) + 1 / 2) * 2 ^ (L + 1 - 53)) ^ 2) :
    binRound 53 √x = k * 2 ^ (L + 1 - 53) := by
  have hk : (1 : ℝ) ≤ k := by exact_mod_cast h0
  have hp : (0 : ℝ) < 2 ^ (L + 1 - 53) := by positivity
  have l1 : ((k : ℝ) - 1 / 2) * 2 ^ (L + 1 - 53) < √x :=
    Real.lt_sqrt_of_sq_lt h3
  have l2 : √x < ((k : ℝ) + 1 / 2) * 2 ^ (L + 1 - 53) :=
    (Real.sqrt_lt' (mul_pos (by linarith) hp)).2 h4
  have hs : 0 ≤ √x := Real.sqrt_nonneg _
  refine binRound_near k L (by rw [abs_of_nonneg hs]; linarith) (by rw [abs_of_nonneg hs]; linarith) (Or.inl ?_) rfl
  rw [abs_lt]
  constructor
  · rw [lt_sub_iff_add_lt, lt_div_iff₀ hp]; linarith
  · rw [sub_lt_iff_lt_add, div_lt_iff₀ hp]; linarith

/-- The `2 × 2` step: the value that should be `5/4` (up to rounding) is multiplied by a number that is not `1`. -/
theorem exSvd_2x2 : ∃ l0 l1 ru rv,
    compute2x2UptrigSvd (⟨3 / 4⟩ : 𝔻) 1 ⟨25 / 2 ^ 54⟩ true true = (l0, l1, some ru, some rv) ∧
      0 ≤ l0.v ∧ 12605 / 10000 ≤ l1.v := by
  have e1 : (⟨3 / 4⟩ : 𝔻) + ⟨25 / 2 ^ 54⟩ = ⟨3 / 4 + 12 / 2 ^ 53⟩ :=
    Rnd.ext (binRound_near (3 * 2 ^ 51 + 12) (-1) (by rw [abs_of_pos (by norm_num)]; norm_num)
      (by rw [abs_of_pos (by norm_num)]; norm_num)
      (Or.inr ⟨by rw [abs_of_pos (by norm_num)]; norm_num, by decide⟩) (by norm_num))
  have e2 : (⟨3 / 4⟩ : 𝔻) - ⟨25 / 2 ^ 54⟩ = ⟨3 / 4 - 12 / 2 ^ 53⟩ :=
    Rnd.ext (binRound_near (3 * 2 ^ 51 - 12) (-1) (by rw [abs_of_pos (by norm_num)]; norm_num)
      (by rw [abs_of_pos (by norm_num)]; norm_num)
      (Or.inr ⟨by rw [abs_of_neg (by norm_num)]; norm_num, by decide⟩) (by norm_num))
  have e3 : (NdFloat.hypot ⟨3 / 4 + 12 / 2 ^ 53⟩ 1 : 𝔻) = ⟨5 / 4 + 4 / 2 ^ 52⟩ :=
    Rnd.ext ((near_sqrt (5 * 2 ^ 50 + 4) 0 (by norm_num) (by norm_num) (by norm_num) (by norm_num) (by norm_num)).trans
      (by norm_num))
  have e4 : (NdFloat.hypot ⟨3 / 4 - 12 / 2 ^ 53⟩ 1 : 𝔻) = ⟨5 / 4 - 4 / 2 ^ 52⟩ :=
    Rnd.ext ((near_sqrt (5 * 2 ^ 50 - 4) 0 (by norm_num) (by norm_num) (by norm_num) (by norm_num) (by norm_num)).trans
      (by norm_num))
  have e5 : (⟨5 / 4 + 4 / 2 ^ 52⟩ : 𝔻) + ⟨5 / 4 - 4 / 2 ^ 52⟩ = ⟨5 / 2⟩ := exr 5 (-1)
  have e6 : (⟨3 / 4⟩ : 𝔻) * ⟨25 / 2 ^ 54⟩ = ⟨75 / 2 ^ 56⟩ := exr 75 (-56)
  have e7 : (⟨75 / 2 ^ 56⟩ : 𝔻) * ⟨2⟩ = ⟨75 / 2 ^ 55⟩ := exr 75 (-55)
  have e8 : (⟨75 / 2 ^ 55⟩ : 𝔻) / ⟨5 / 2⟩ = ⟨15 / 2 ^ 54⟩ := exr 15 (-54)
  have e9 : (⟨5 / 2⟩ : 𝔻) / ⟨2⟩ = ⟨5 / 4⟩ := exr 5 (-2)
  have e10 : (⟨3 / 4⟩ : 𝔻) * 1 = ⟨3 / 4⟩ := exr 3 (-2)
  have e11 : (⟨15 / 2 ^ 54⟩ : 𝔻) * ⟨15 / 2 ^ 54⟩ = ⟨225 / 2 ^ 108⟩ := exr 225 (-108)
  have e12 : (⟨3 / 4⟩ : 𝔻) * ⟨3 / 4⟩ = ⟨9 / 16⟩ := exr 9 (-4)
  have e13 : (⟨225 / 2 ^ 108⟩ : 𝔻) - ⟨9 / 16⟩ = ⟨-(9 / 16)⟩ :=
    Rnd.ext (binRound_near (-(9 * 2 ^ 49)) (-1) (by rw [abs_of_neg (by norm_num)]; norm_num)
      (by rw [abs_of_neg (by norm_num)]; norm_num)
      (Or.inl (by rw [abs_of_pos (by norm_num)]; norm_num)) (by norm_num))
  have e14 : (NdFloat.hypot ⟨3 / 4⟩ ⟨-(9 / 16)⟩ : 𝔻) = ⟨15 / 16⟩ := by
    apply Rnd.ext
    show binRound 53 √(3 / 4 * (3 / 4) + -(9 / 16) * -(9 / 16)) = _
    rw [show (3 / 4 * (3 / 4) + -(9 / 16) * -(9 / 16) : ℝ) = 15 / 16 * (15 / 16) by norm_num,
      Real.sqrt_mul_self (by norm_num)]
    exact binRound_exact 15 (-4) (by norm_num) (by norm_num) (by norm_num)
  have e15 : (⟨3 / 4⟩ : 𝔻) / ⟨15 / 16⟩ = ⟨7205759403792794 / 2 ^ 53⟩ :=
    Rnd.ext (binRound_near 7205759403792794 (-1) (by rw [abs_of_pos (by norm_num)]; norm_num)
      (by rw [abs_of_pos (by norm_num)]; norm_num)
      (Or.inl (by rw [abs_lt]; norm_num)) (by norm_num))
  have e16 : (⟨-(9 / 16)⟩ : 𝔻) / ⟨15 / 16⟩ = ⟨-(5404319552844595 / 2 ^ 53)⟩ :=
    Rnd.ext (binRound_near (-5404319552844595) (-1) (by rw [abs_of_neg (by norm_num)]; norm_num)
      (by rw [abs_of_neg (by norm_num)]; norm_num)
      (Or.inl (by rw [abs_lt]; norm_num)) (by norm_num))
  have e17 : (⟨15 / 2 ^ 54⟩ : 𝔻) * ⟨15 / 16⟩ = ⟨225 / 2 ^ 58⟩ := exr 225 (-58)
  have e18 : (⟨5 / 4⟩ : 𝔻) * ⟨15 / 16⟩ = ⟨75 / 64⟩ := exr 75 (-6)
  have e19 : (⟨3 / 4⟩ : 𝔻) * ⟨7205759403792794 / 2 ^ 53⟩ = ⟨5404319552844596 / 2 ^ 53⟩ :=
    Rnd.ext (binRound_near 5404319552844596 (-1) (by rw [abs_of_pos (by norm_num)]; norm_num)
      (by rw [abs_of_pos (by norm_num)]; norm_num)
      (Or.inr ⟨by rw [abs_of_neg (by norm_num)]; norm_num, by decide⟩) (by norm_num))
  have e20 : (1 : 𝔻) * ⟨-(5404319552844595 / 2 ^ 53)⟩ = ⟨-(5404319552844595 / 2 ^ 53)⟩ := exr (-5404319552844595) (-53)
  have e21 : (⟨5404319552844596 / 2 ^ 53⟩ : 𝔻) + ⟨-(5404319552844595 / 2 ^ 53)⟩ = ⟨1 / 2 ^ 53⟩ := exr 1 (-53)
  set cu : 𝔻 := ⟨1 / 2 ^ 53⟩ / ⟨225 / 2 ^ 58⟩ with hcu
  set su : 𝔻 := ⟨25 / 2 ^ 54⟩ * ⟨-(5404319552844595 / 2 ^ 53)⟩ / ⟨225 / 2 ^ 58⟩ with hsu
  have b1 := dbl_pos (z := 1 / 2 ^ 53 / (225 / 2 ^ 58)) (a := 14222 / 100000) (b := 14223 / 100000) (by norm_num)
    (by norm_num) (by norm_num)
  have b2 := dbl_neg (z := 25 / 2 ^ 54 * -(5404319552844595 / 2 ^ 53)) (a := 74999 / 10000 / 2 ^ 53)
    (b := 75001 / 10000 / 2 ^ 53) (by norm_num) (by norm_num) (by norm_num)
  have b3 := dbl_neg (z := StdModel.double.rnd (25 / 2 ^ 54 * -(5404319552844595 / 2 ^ 53)) / (225 / 2 ^ 58))
    (a := 10665 / 10000) (b := 10668 / 10000) (by norm_num)
    (by rw [← neg_div, le_div_iff₀ (by norm_num)]; refine le_trans ?_ b2.1; norm_num)
    (by rw [← neg_div, div_le_iff₀ (by norm_num)]; refine le_trans b2.2 ?_; norm_num)
  have c1 : 1422 / 10000 ≤ cu.v := le_trans (by norm_num) b1.1
  have c2 : cu.v ≤ 1423 / 10000 := le_trans b1.2 (by norm_num)
  have c3 : 10664 / 10000 ≤ -su.v := le_trans (by norm_num) b3.1
  have c4 : -su.v ≤ 10669 / 10000 := le_trans b3.2 (by norm_num)
  have b4 := dbl_pos (z := √(cu.v * cu.v + su.v * su.v)) (a := 1075839 / 1000000) (b := 2) (by norm_num)
    (Real.le_sqrt_of_sq_le (by nlinarith)) (by rw [Real.sqrt_le_left (by norm_num)]; nlinarith)
  have c5 : 107583 / 100000 ≤ (NdFloat.hypot cu su : 𝔻).v := le_trans (by norm_num) b4.1
  have c6 : (NdFloat.hypot cu su : 𝔻).v ≤ 3 := le_trans b4.2 (by norm_num)
  have b5 := dbl_pos (z := 75 / 64 * (NdFloat.hypot cu su : 𝔻).v) (a := 1260735 / 1000000) (b := 5) (by norm_num)
    (by linarith) (by linarith)
  have b6 := dbl_pos (z := 225 / 2 ^ 58 * (NdFloat.hypot cu su : 𝔻).v) (a := 0) (b := 1) (by norm_num)
    (by linarith) (by linarith)
  refine ⟨⟨225 / 2 ^ 58⟩ * NdFloat.hypot cu su, ⟨75 / 64⟩ * NdFloat.hypot cu su,
    ⟨cu / NdFloat.hypot cu su, su / NdFloat.hypot cu su⟩,
    ⟨⟨7205759403792794 / 2 ^ 53⟩, ⟨-(5404319552844595 / 2 ^ 53)⟩⟩, ?_, le_trans (by norm_num) b6.1,
    le_trans (by norm_num) b5.1⟩
  have n1 : GivensRotation.new (⟨3 / 4⟩ : 𝔻) ⟨-(9 / 16)⟩ =
      (⟨⟨7205759403792794 / 2 ^ 53⟩, ⟨-(5404319552844595 / 2 ^ 53)⟩⟩, ⟨15 / 16⟩) := by
    unfold GivensRotation.new GivensRotation.tryNew
    simp only [e14, e15, e16]
    rw [if_pos (by norm_num)]
    rfl
  have n2 : GivensRotation.new cu su =
      (⟨cu / NdFloat.hypot cu su, su / NdFloat.hypot cu su⟩, NdFloat.hypot cu su) := by
    unfold GivensRotation.new GivensRotation.tryNew
    dsimp only
    rw [if_pos (by rw [Rnd.lt_v, decide_eq_true_eq, Rnd.zero_v]; linarith)]
    rfl
  unfold compute2x2UptrigSvd
  simp only [two_dbl, e1, e2, e3, e4, e5, e6, e7, e8, e9, e10, e11, e12, e13, n1, e17, e18, e19, e20, e21, ← hcu, ← hsu, n2,
    Bool.or_self, if_true]

/-- The run of `svd` on `exSvd`. -/
theorem exSvd_run (fuel : Nat) : ∃ u s vt, svd (fuel + 1) exSvd true true = .ok (u, s, vt) ∧ s.len = 2 ∧
    126 / 100 ≤ (s.get 1).v := by
  have hmax : exSvd.amax = 1 := by
    apply Rnd.ext
    simp only [Arr2.amax, Arr2.toList, exSvd, ofRows, List.range_succ, List.range_zero]
    simp
    have h : (NdFloat.negInf : 𝔻).v = -1 := rfl
    rw [h]
    rw [abs_of_pos (by norm_num : (0 : ℝ) < 3 / 4), abs_of_pos (by norm_num : (0 : ℝ) < 25 / 2 ^ 54)]
    norm_num
  have hsd : exSvd.scaleDown exSvd.amax = ⟨2, 2, fun i j => exSvd.get i j / 1⟩ := by
    rw [hmax]
    unfold Arr2.scaleDown
    rw [if_neg (by simp)]
    rfl
  obtain ⟨t, ht, t1, t2, t3, t4, t5, t6, t7, t8⟩ := exSvd_bidiag (fun i j => exSvd.get i j / 1)
    (Rnd.ext (binRound_exact 3 (-2) (by norm_num) (by norm_num [exSvd, ofRows]) (by norm_num [exSvd, ofRows])))
    (Rnd.ext (binRound_exact 1 0 (by norm_num) (by norm_num [exSvd, ofRows]) (by norm_num [exSvd, ofRows])))
    (Rnd.ext (binRound_exact 0 0 (by norm_num) (by norm_num [exSvd, ofRows]) (by norm_num [exSvd, ofRows])))
    (Rnd.ext (binRound_exact 25 (-54) (by norm_num) (by norm_num [exSvd, ofRows]) (by norm_num [exSvd, ofRows])))
  obtain ⟨b, U, Vt, hb, hU, hV, hup, hsh, hgo⟩ := svdGo_eq exSvd (by simp [exSvd]) (by simp [exSvd])
  rw [hsd, ht] at hb
  obtain rfl : t = b := Except.ok.inj hb
  obtain ⟨s1, s2, s3, s4, -⟩ := hsh true true
  simp only [if_true] at s3 s4
  obtain ⟨l0, l1, ru, rv, h2, hl0, hl1⟩ := exSvd_2x2
  have heps : (NdFloat.epsilon * NdFloat.ofRat 5 : 𝔻) = ⟨5 / 2 ^ 52⟩ := by
    have : (NdFloat.ofRat 5 : 𝔻) = ⟨5⟩ := exr 5 0
    rw [this]
    apply Rnd.ext
    show binRound 53 ((2 : ℝ)⁻¹ ^ 52 * 5) = _
    exact binRound_exact 5 (-52) (by norm_num) (by norm_num) (by norm_num)
  obtain ⟨s, e, s', st, hdel, hloop, hlen, g0, g1, u', hu', hus⟩ := svdLoop2 fuel t.intoDiagonals.1 t.intoDiagonals.2 U Vt
    (⟨5 / 2 ^ 52⟩ : 𝔻) (d0 := ⟨3 / 4⟩) (o0 := 1) (d1 := ⟨25 / 2 ^ 54⟩) (l0 := l0) (l1 := l1) (ru := ru) (rv := rv)
    s1 s2 (s3 U rfl) (s4 Vt rfl)
    (by simp only [BidiagonalDecomp.intoDiagonals, Arr1.map, t6]
        exact Rnd.ext (by rw [Rnd.abs_v, Rnd.neg_v, abs_neg, abs_of_pos (by norm_num)]))
    (by simp only [BidiagonalDecomp.intoDiagonals, Arr1.map, t7]
        exact Rnd.ext (by rw [Rnd.abs_v, Rnd.neg_v, Rnd.neg_v, neg_neg, abs_of_pos (by norm_num)]))
    (by simp only [BidiagonalDecomp.intoDiagonals, Arr1.map, t8]
        exact Rnd.ext (by simp))
    (by simp)
    (by
      rw [Rnd.le_v, decide_eq_false_iff_not, Rnd.mul_v, Rnd.add_v, Rnd.abs_v, Rnd.abs_v, Rnd.abs_v, Rnd.one_v, not_le]
      have h1 := dbl_pos (z := |(25 / 2 ^ 54 : ℝ)| + |(3 / 4 : ℝ)|) (a := 0) (b := 1) (by norm_num)
        (by positivity) (by rw [abs_of_pos (by norm_num), abs_of_pos (by norm_num)]; norm_num)
      have h2 := dbl_pos (z := (5 / 2 ^ 52 : ℝ) * StdModel.double.rnd (|(25 / 2 ^ 54 : ℝ)| + |(3 / 4 : ℝ)|)) (a := 0)
        (b := 1 / 2) le_rfl (mul_nonneg (by norm_num) (by norm_num at h1 ⊢; linarith))
        (by norm_num at h1 ⊢; linarith)
      refine lt_of_le_of_lt h2.2 ?_
      norm_num)
    (by
      rw [Rnd.le_v, decide_eq_false_iff_not, Rnd.abs_v, abs_of_pos (by norm_num)]
      norm_num)
    (by
      rw [Rnd.le_v, decide_eq_false_iff_not, Rnd.abs_v, abs_of_pos (by norm_num)]
      norm_num)
    h2
  have m0 := dbl_pos (z := l0.v * 1) (a := 0) (b := l0.v) (by norm_num) (by linarith) (by linarith)
  have m1 := dbl_pos (z := l1.v * 1) (a := 12605 / 10000) (b := l1.v) (by norm_num) (by linarith) (by linarith)
  have hfix : fixSigns 2 (st.s.diag.map fun x => x * exSvd.amax) st.s.u =
      .ok (st.s.diag.map fun x => x * exSvd.amax, st.s.u) := by
    have k0 : NdFloat.isSignNeg (l0 * 1 : 𝔻) = false := by
      show decide ((l0 * 1 : 𝔻).v < 0) = false
      rw [decide_eq_false_iff_not, not_lt]
      refine le_trans ?_ m0.1
      norm_num
    have k1 : NdFloat.isSignNeg (l1 * 1 : 𝔻) = false := by
      show decide ((l1 * 1 : 𝔻).v < 0) = false
      rw [decide_eq_false_iff_not, not_lt]
      refine le_trans ?_ m1.1
      norm_num
    unfold fixSigns
    simp [forRange, List.range', loopM, Arr1.idx, Arr1.map, hlen, g0, g1, hmax, ok_bind, k0, k1]
  refine ⟨st.s.u, st.s.diag.map fun x => x * exSvd.amax, st.s.vt, ?_, hlen, ?_⟩
  · unfold svd
    rw [hgo, heps]
    have hd : decide (exSvd.nc ≤ exSvd.nr) = true := by simp [exSvd]
    rw [hd, show min exSvd.nr exSvd.nc = 2 from rfl]
    simp only [if_true]
    rw [show 2 - 1 = 1 from rfl, hdel]
    simp only [ok_bind]
    rw [hloop]
    simp only [ok_bind]
    rw [hfix]
    rfl
  · simp only [Arr1.map, g1, hmax]
    exact le_trans (by norm_num) m1.1

end LinfaLinalg
