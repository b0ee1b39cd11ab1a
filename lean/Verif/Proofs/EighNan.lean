import Verif.Proofs.PowerFloat
set_option linter.unusedSimpArgs false
set_option linter.unusedSectionVars false
/-!
# A matrix of doubles on which `eigh` computes `0 / 0`

The run behind C105: the Householder reduction and two sweeps over a `3 × 3` matrix, first with the results of the
scalar operations given, then in double precision.
-/

namespace LinfaLinalg

section
variable {α : Type} [Zero α] [One α] [Add α] [Sub α] [Mul α] [Div α] [Neg α] [NdFloat α]

/-- `sym_tridiagonal` of a `3 × 3` matrix, the axes of the reflections being given. -/
theorem tridiag3Of (hD : ShortDots α) (g : Nat → Nat → α) {u v w n1 n2 p0 p1 k s p2 m10 m11 m00 e : α}
    {c1 : Arr1 α}
    (hx : reflectionAxisMut (⟨2, fun i => g (1 + i) 0⟩ : Arr1 α) = .ok (c1, some n1)) (l1 : c1.len = 2)
    (hu : c1.get 0 = u) (hv : c1.get 1 = v)
    (b0 : (0 + g 1 1 * u + g 1 2 * v) * NdFloat.ofRat 2 = p0) (b1 : (0 + g 2 1 * u + g 2 2 * v) * NdFloat.ofRat 2 = p1)
    (b2 : 0 + u * p0 + v * p1 = k)
    (d00 : g 1 1 + -1 * (p0 * u) + -1 * (u * p0) + (k + k) * (u * u) = m00)
    (d10 : g 2 1 + -1 * (p1 * u) + -1 * (v * p0) + (k + k) * (v * u) = m10)
    (d11 : g 2 2 + -1 * (p1 * v) + -1 * (v * p1) + (k + k) * (v * v) = m11)
    (hy : ∀ f : Nat → α, f 0 = m10 → ∃ c2, reflectionAxisMut (⟨1, f⟩ : Arr1 α) = .ok (c2, some n2) ∧ c2.len = 1 ∧
      c2.get 0 = w)
    (b4 : (0 + m11 * w) * NdFloat.ofRat 2 = p2) (b5 : 0 + w * p2 = s)
    (e0 : m11 + -1 * (p2 * w) + -1 * (w * p2) + (s + s) * (w * w) = e) :
    ∃ t, symTridiagonal ⟨3, 3, g⟩ = .ok t ∧ t.diagMatrix.get 0 0 = g 0 0 ∧ t.diagMatrix.get 1 1 = m00 ∧
      t.diagMatrix.get 2 2 = e ∧ t.offDiagonal.get 0 = n1 ∧ t.offDiagonal.get 1 = n2 := by
  unfold symTridiagonal
  rw [checkSquare_ok rfl]
  simp [forRange, List.range', loopM, tridiagStep, Arr2.colSlice, Arr2.slice, ok_bind]
  rw [hx]
  simp [ok_bind, Arr1.dot, hD.one, hD.two, Arr1.idx, Arr1.idxSet, Arr1.upd, l1, hu, hv,
    Arr2.putCol, Arr1.zeros, Arr1.map, Arr1.slice, Arr1.put, matVecMul,
    rankOneUpdate, Arr2.put, b0, b1, b2]
  choose! C hC l2 hw using hy
  rw [hC _ (by simpa [b1, hv] using d10)]
  simp [ok_bind, Arr1.dot, hD.one, hD.two, Arr1.idx, Arr1.idxSet, Arr1.upd, l1, l2, hu, hv, hw,
    Arr2.putCol, Arr1.zeros, Arr1.map, Arr1.slice, Arr1.put, matVecMul,
    rankOneUpdate, Arr2.put, b0, b1, b2, d10, d11, b4, b5, e0, d00]
/-- The rotation of two neighbouring columns of a `3 × 3` matrix. -/
theorem rotateColsPair3 (g : GivensRotation α) {c : Nat} (hc : c ≤ 1) (Q : Arr2 α) (hQ : HasShape Q 3 3) :
    ∃ Q', rotateColsPair g c (some Q) = .ok (some Q') ∧ HasShape Q' 3 3 ∧ ∀ i, i < 3 →
      Q'.get i c = Q.get i c * g.c + g.s * Q.get i (c + 1) ∧
      Q'.get i (c + 1) = -g.s * Q.get i c + Q.get i (c + 1) * g.c ∧
      ∀ j, j ≠ c → j ≠ c + 1 → Q'.get i j = Q.get i j := by
  obtain ⟨q1, q2⟩ := hQ
  have h1 : c + 2 ≤ 3 := by omega
  simp [rotateColsPair, Arr2.slice, GivensRotation.rotateRows, q1, q2, h1, ok_bind, forRange, loopM, List.range', unwrapM,
    Arr2.at, Arr2.atm, Arr2.upd, HasShape, Arr2.put]
  intro i hi
  have hi' : i = 0 ∨ i = 1 ∨ i = 2 := by omega
  refine ⟨?_, ?_, ?_⟩
  · rcases hi' with rfl | rfl | rfl <;> simp
  · rcases hi' with rfl | rfl | rfl <;> simp
  · intro j h1 h2 _ h3 h4
    omega

/-- One sweep over the whole of a `3 × 3` matrix, the results of the operations being given. -/
theorem eigSweep3 (eps : α) (d o : Arr1 α) (Q : Arr2 α) (hd : d.len = 3) (ho : o.len = 2) (hQ : HasShape Q 3 3)
    {d0 d1 d2 o0 o1 x r1 c1 s1 D0 D1 O0 O1 y r2 c2 s2 E1 E2 P1 : α} {b : Bool}
    (h0 : d.get 0 = d0) (h1 : d.get 1 = d1) (h2 : d.get 2 = d2) (g0 : o.get 0 = o0) (g1 : o.get 1 = o1)
    (hx : d0 - wilkinsonShift d1 d2 o1 = x) (z0 : NdFloat.isZero o0 = false)
    (a1 : NdFloat.hypot x o0 = r1) (a2 : x / r1 = c1) (a3 : -o0 / r1 = s1)
    (a4 : c1 * c1 * d0 + s1 * s1 * d1 - c1 * s1 * o0 * NdFloat.ofRat 2 = D0)
    (a5 : s1 * s1 * d0 + c1 * c1 * d1 + c1 * s1 * o0 * NdFloat.ofRat 2 = D1)
    (a6 : c1 * s1 * (d0 - d1) + o0 * (c1 * c1 - s1 * s1) = O0)
    (a7 : o1 * c1 = O1) (a8 : -s1 * o1 = y) (z1 : NdFloat.isZero y = false)
    (b1 : NdFloat.hypot O0 y = r2) (b2 : O0 / r2 = c2) (b3 : -y / r2 = s2)
    (b4 : c2 * c2 * D1 + s2 * s2 * d2 - c2 * s2 * O1 * NdFloat.ofRat 2 = E1)
    (b5 : s2 * s2 * D1 + c2 * c2 * d2 + c2 * s2 * O1 * NdFloat.ofRat 2 = E2)
    (b6 : c2 * s2 * (D1 - d2) + O1 * (c2 * c2 - s2 * s2) = P1)
    (b7 : NdFloat.le (NdFloat.abs P1) (eps * (NdFloat.abs E1 + NdFloat.abs E2)) = b) :
    ∃ d' o' Q' Q1, eigSweep eps ⟨d, o, some Q, 0, 2⟩ = .ok ⟨d', o', some Q', 0, if b then 1 else 2⟩ ∧
      d'.len = 3 ∧ o'.len = 2 ∧ HasShape Q1 3 3 ∧ HasShape Q' 3 3 ∧ d'.get 0 = D0 ∧ d'.get 1 = E1 ∧ d'.get 2 = E2 ∧ o'.get 0 = r2 ∧
      o'.get 1 = P1 ∧ rotateColsPair ⟨c1, -s1⟩ 0 (some Q) = .ok (some Q1) ∧
      rotateColsPair ⟨c2, -s2⟩ 1 (some Q1) = .ok (some Q') := by
  obtain ⟨Q1, e1, q1, -⟩ := rotateColsPair3 ⟨c1, -s1⟩ (c := 0) (by omega) Q hQ
  obtain ⟨Q2, e2, q2, -⟩ := rotateColsPair3 ⟨c2, -s2⟩ (c := 1) (by omega) Q1 q1
  have f1 : GivensRotation.cancelY x o0 = some (⟨c1, s1⟩, r1) := by
    simp [GivensRotation.cancelY, z0, a1, a2, a3]
  have f2 : GivensRotation.cancelY O0 y = some (⟨c2, s2⟩, r2) := by
    simp [GivensRotation.cancelY, z1, b1, b2, b3]
  unfold eigSweep
  simp [hd, ho, h0, h1, h2, g0, g1, hx, Arr1.idx, ok_bind, loopBrk, List.range', sweepStep, f1, Arr1.at, Arr1.atm, Arr1.upd,
    GivensRotation.inverse, e1, a4, a5, a6, a7, a8, f2, e2, b4, b5, b6, b7, q1, q2]
/-- The reflection for a column of length two. -/
theorem axis2 (hD : ShortDots α) (c : Arr1 α) (hc : c.len = 2) {x y nsq n sn f z r u v : α} (hx : c.get 0 = x) (hy : c.get 1 = y)
    (a1 : 0 + x * x + y * y = nsq)
    (a2 : NdFloat.sqrt nsq = n) (a3 : NdFloat.signum x * n = sn) (a4 : x + sn = f)
    (a5 : (nsq + NdFloat.abs x * n) * NdFloat.ofRat 2 = z) (a6 : NdFloat.isZero z = false) (a7 : NdFloat.sqrt z = r)
    (a8 : f / r = u) (a9 : y / r = v) :
    ∃ c', reflectionAxisMut c = .ok (c', some (-sn)) ∧ c'.len = 2 ∧ c'.get 0 = u ∧ c'.get 1 = v := by
  unfold reflectionAxisMut
  simp [Arr1.dot, ok_bind, hc, hD.two, hx, hy, a1, a2, a3, a4, a5, a6, a7, a8, a9, Arr1.idx, Arr1.idxSet, Arr1.upd, Arr1.map]

end

/-! ## The run -/

local notation "𝔽" => Flt Rounding.binary64

theorem b64_shortDots : ShortDots 𝔽 := ⟨b64_dot_one, b64_dot_two⟩

/-- The matrix `[[-2t, 1, 0], [1, 0, t], [0, t, 0]]` with `t = 2 ^ (-k)`. -/
noncomputable def nanMat (k : ℤ) : Arr2 𝔽 :=
  ⟨3, 3, fun i j => (([[pw true (1 - k), pw false 0, zr false], [pw false 0, zr false, pw false (-k)],
    [zr false, pw false (-k), zr false]] : List (List 𝔽)).getD i []).getD j 0⟩

theorem sqrt_pw_half {i : ℤ} (h : i % 2 = 0) (h1 : -1074 ≤ i) (h2 : i ≤ 900) :
    NdFloat.sqrt (pw false i) = pw false (i / 2) := sqrt_pw (by omega) (by omega) (by omega)

theorem pw_congr {s : Bool} {i j : ℤ} (h : i = j) : pw s i = pw s j := by rw [h]

local macro "pws" : tactic => `(tactic| (
  simp (disch := first | omega | decide) only [zr_false, pw_one, pw_two, pw_half, pw_eps, sub_add, neg_pw, neg_zr, abs_pw, abs_zr,
    signum_pw, signum_zr, mul_pw, mul_pw_vanish, mul_pw_zr, mul_zr_pw, mul_zr_zr, add_pw_double, add_pw_cancel,
    add_pw_half, add_pw_half', add_pw_left, add_pw_right, add_pw_zr, add_zr_pw, add_zr_zr, sqrt_pw_half, sqrt_zr, div_pw,
    div_zr_pw, div_zr_zr, hypot_pw_left, hypot_pw_right, isZero_pw, isZero_zr, lt_pw, lt_pw_false, lt_zr_pw, lt_pw_zr,
    le_pw, le_pw_false, le_pw_zr, nan_add, add_nan, nan_mul, mul_nan, nan_div, div_nan, abs_nan, hypot_nan_pw,
    hypot_nan_nan, isZero_nan, lt_nan, le_nan, nan_le, neg_nan, bne_self_eq_false, Bool.not_true, Bool.not_false,
    Bool.true_bne, Bool.false_bne, Bool.bne_true, Bool.bne_false, Bool.and_true, Bool.and_false, Bool.true_and,
    Bool.false_and, Bool.and_self] <;> (try (apply pw_congr; omega))))

theorem nanMat_tridiag {k : ℤ} (h1 : 359 ≤ k) (h2 : k ≤ 537) :
    ∃ t, symTridiagonal (nanMat k) = .ok t ∧ t.diagMatrix.get 0 0 = pw true (1 - k) ∧ t.diagMatrix.get 1 1 = zr false ∧
      t.diagMatrix.get 2 2 = zr false ∧ t.offDiagonal.get 0 = pw true 0 ∧ t.offDiagonal.get 1 = pw false (-k) := by
  obtain ⟨c1, e1, l1, u1, v1⟩ := axis2 b64_shortDots (⟨2, fun i => (nanMat k).get (1 + i) 0⟩ : Arr1 𝔽) rfl
    (x := pw false 0) (y := zr false) (nsq := pw false 0) (n := pw false 0) (sn := pw false 0) (f := pw false 1)
    (z := pw false 2) (r := pw false 1) (u := pw false 0) (v := zr false) rfl rfl
    (by pws) (by pws) (by pws) (by pws) (by pws) (by pws) (by pws) (by pws) (by pws)
  obtain ⟨t, ht, r0, r1, r2, r3, r4⟩ := tridiag3Of b64_shortDots (nanMat k).get (n1 := -pw false 0) (n2 := -pw true (-k))
    (p0 := zr false) (p1 := pw false (1 - k)) (k := zr false) (m00 := zr false) (m10 := pw true (-k)) (m11 := zr false)
    (w := pw true 0) (p2 := zr false) (s := zr false) (e := zr false) e1 l1 u1 v1
    (by show (0 + zr false * _ + pw false (-k) * _) * _ = _; pws)
    (by show (0 + pw false (-k) * _ + zr false * _) * _ = _; pws)
    (by pws)
    (by show zr false + _ + _ + _ = _; pws)
    (by show pw false (-k) + _ + _ + _ = _; pws)
    (by show zr false + _ + _ + _ = _; pws)
    (by
      intro f hf
      obtain ⟨c', e, l, v⟩ := axis1 b64_dot_one (⟨1, f⟩ : Arr1 𝔽) rfl (x := pw true (-k)) (nsq := pw false (-k + -k))
        (n := pw false (-k)) (sn := pw true (-k)) (f := pw true (1 - k)) (z := pw false (2 + -k + -k)) (r := pw false (1 - k))
        (v := pw true 0) hf (by pws) (by pws) (by pws) (by pws) (by pws) (by pws) (by pws) (by pws)
      exact ⟨c', e, l, v⟩)
    (by pws) (by pws) (by pws)
  exact ⟨t, ht, r0, r1, r2, r3, r4⟩

theorem nanMat_amax {k : ℤ} (h1 : 359 ≤ k) : (nanMat k).amax = pw false 0 := by
  have l1 : ∀ j, NdFloat.max (NdFloat.negInf : 𝔽) (pw false j) = pw false j := by
    intro j
    rfl
  have l2 : ∀ a b : 𝔽, a ≠ .nan → b ≠ .nan → NdFloat.max a b = if NdFloat.lt a b then b else a := by
    intro a b ha hb
    cases a <;> cases b <;> first | rfl | exact absurd rfl ha
  have l3 : ∀ s j, pw s j ≠ .nan := fun _ _ => by rw [pw]; intro h; cases h
  have l4 : zr false ≠ .nan := by rw [zr]; intro h; cases h
  have e : (nanMat k).toList = [pw true (1 - k), pw false 0, zr false, pw false 0, zr false, pw false (-k),
    zr false, pw false (-k), zr false] := rfl
  rw [Arr2.amax, e]
  simp (disch := first | omega | exact l3 _ _ | exact l4) [abs_pw, abs_zr, l1, l2, lt_pw, lt_pw_false, lt_pw_zr]

/-- The matrix is not changed by the scaling. -/
theorem nanMat_scale {k : ℤ} (h1 : 359 ≤ k) (h2 : k ≤ 537) :
    (nanMat k).scaleDown (nanMat k).amax = nanMat k := by
  rw [nanMat_amax h1, Arr2.scaleDown, isZero_pw, if_neg (by simp), Arr2.map]
  have e : ∀ x ∈ [pw true (1 - k), pw false 0, zr false, pw false (-k)], x / pw false 0 = x := by
    simp only [List.mem_cons, List.not_mem_nil, or_false]
    rintro x (rfl | rfl | rfl | rfl) <;> pws
  have e' : ∀ i j, (nanMat k).get i j ∈ [pw true (1 - k), pw false 0, zr false, pw false (-k)] := by
    intro i j
    rcases i with _ | _ | _ | i <;> rcases j with _ | _ | _ | j <;> simp [nanMat, zr_false]
  have : (fun i j => (nanMat k).get i j / pw false 0) = (nanMat k).get := by
    funext i j
    exact e _ (e' i j)
  rw [this]

/-- The first sweep. -/
theorem nanMat_sweep1 {k : ℤ} (h1 : 359 ≤ k) (h2 : k ≤ 537) (d o : Arr1 𝔽) (Q : Arr2 𝔽) (hd : d.len = 3) (ho : o.len = 2)
    (hQ : HasShape Q 3 3) (d0 : d.get 0 = pw true (1 - k)) (d1 : d.get 1 = zr false) (d2 : d.get 2 = zr false)
    (o0 : o.get 0 = pw false 0) (o1 : o.get 1 = pw false (-k)) :
    ∃ d' o' Q', eigSweep NdFloat.epsilon ⟨d, o, some Q, 0, 2⟩ = .ok ⟨d', o', some Q', 0, 2⟩ ∧
      d'.len = 3 ∧ o'.len = 2 ∧ HasShape Q' 3 3 ∧ d'.get 0 = pw true (1 - k) ∧ d'.get 1 = zr false ∧
      d'.get 2 = zr false ∧ o'.get 0 = pw false 0 ∧ o'.get 1 = pw true (-k + -k) := by
  obtain ⟨d', o', Q', Q1, hr, a1, a2, -, a3, a4, a5, a6, a7, a8, -⟩ := eigSweep3 NdFloat.epsilon d o Q hd ho hQ d0 d1 d2 o0 o1
    (x := pw true (-k)) (r1 := pw false 0) (c1 := pw true (-k)) (s1 := pw true 0) (D0 := pw true (1 - k)) (D1 := zr false)
    (O0 := pw true 0) (O1 := pw true (-k + -k)) (y := pw false (-k)) (r2 := pw false 0) (c2 := pw true 0) (s2 := pw true (-k))
    (E1 := zr false) (E2 := zr false) (P1 := pw true (-k + -k)) (b := false)
    (by rw [wilkinsonShift, isZero_pw]; simp only [Bool.not_false, if_true]; pws) (by pws) (by pws) (by pws) (by pws) (by pws) (by pws)
    (by pws) (by pws) (by pws) (by pws) (by pws) (by pws) (by pws) (by pws) (by pws) (by pws) (by pws)
  exact ⟨d', o', Q', hr, a1, a2, a3, a4, a5, a6, a7, a8⟩

/-- The second sweep: `wilkinson_shift` divides zero by zero. -/
theorem nanMat_sweep2 {k : ℤ} (h1 : 359 ≤ k) (h2 : k ≤ 537) (d o : Arr1 𝔽) (Q : Arr2 𝔽) (hd : d.len = 3) (ho : o.len = 2)
    (hQ : HasShape Q 3 3) (d0 : d.get 0 = pw true (1 - k)) (d1 : d.get 1 = zr false) (d2 : d.get 2 = zr false)
    (o0 : o.get 0 = pw false 0) (o1 : o.get 1 = pw true (-k + -k)) :
    ∃ d' o' Q', eigSweep NdFloat.epsilon ⟨d, o, some Q, 0, 2⟩ = .ok ⟨d', o', some Q', 0, 2⟩ ∧
      d'.len = 3 ∧ o'.len = 2 ∧ HasShape Q' 3 3 ∧ (∀ i, i < 3 → d'.get i = .nan) ∧ (∀ i, i < 2 → o'.get i = .nan) ∧
      ∀ i j, i < 3 → j < 3 → Q'.get i j = .nan := by
  obtain ⟨d', o', Q', Q1, hr, a1, a2, g1, a3, a4, a5, a6, a7, a8, q1, q2⟩ :=
    eigSweep3 NdFloat.epsilon d o Q hd ho hQ d0 d1 d2 o0 o1
    (x := .nan) (r1 := .nan) (c1 := .nan) (s1 := .nan) (D0 := .nan) (D1 := .nan)
    (O0 := .nan) (O1 := .nan) (y := .nan) (r2 := .nan) (c2 := .nan) (s2 := .nan)
    (E1 := .nan) (E2 := .nan) (P1 := .nan) (b := false)
    (by rw [wilkinsonShift, isZero_pw]; simp only [Bool.not_false, if_true]; pws) (by pws) (by pws) (by pws) (by pws) (by pws) (by pws)
    (by pws) (by pws) (by pws) (by pws) (by pws) (by pws) (by pws) (by pws) (by pws) (by pws) (by pws)
  obtain ⟨Q1', e1, -, f1⟩ := rotateColsPair3 (⟨.nan, -.nan⟩ : GivensRotation 𝔽) (c := 0) (by omega) Q hQ
  rw [e1] at q1
  obtain rfl : Q1' = Q1 := by simpa using q1
  obtain ⟨Q2', e2, -, f2⟩ := rotateColsPair3 (⟨.nan, -.nan⟩ : GivensRotation 𝔽) (c := 1) (by omega) Q1' g1
  rw [e2] at q2
  obtain rfl : Q2' = Q' := by simpa using q2
  refine ⟨d', o', Q2', hr, a1, a2, a3, ?_, ?_, ?_⟩
  · intro i hi
    obtain rfl | rfl | rfl : i = 0 ∨ i = 1 ∨ i = 2 := by omega
    exacts [a4, a5, a6]
  · intro i hi
    obtain rfl | rfl : i = 0 ∨ i = 1 := by omega
    exacts [a7, a8]
  · intro i j hi hj
    obtain rfl | rfl | rfl : j = 0 ∨ j = 1 ∨ j = 2 := by omega
    · rw [(f2 i hi).2.2 0 (by omega) (by omega), (f1 i hi).1]; pws
    · rw [(f2 i hi).1]; pws
    · rw [(f2 i hi).2.1]; pws

/-- What `symmetric_eig` does on the matrix. -/
theorem nanMat_run {k : ℤ} (h1 : 359 ≤ k) (h2 : k ≤ 537) (fuel : Nat) :
    ∃ vals q, symmetricEig (fuel + 2) (nanMat k) true NdFloat.epsilon = .ok (vals, some q) ∧ vals.len = 3 ∧ HasShape q 3 3 ∧
      (∀ i, i < 3 → vals.get i = .nan) ∧ ∀ i j, i < 3 → j < 3 → q.get i j = .nan := by
  obtain ⟨t, ht, sh, q, hq, q1, -, -, h⟩ := symmetricEig_cases (fuel + 2) (nanMat k) true NdFloat.epsilon rfl (by show 1 ≤ 3; omega)
  obtain ⟨off, s, e, hdl, -, hsh, hrun⟩ := h (by show 3 ≠ 1; omega)
  rw [nanMat_scale h1 h2] at ht
  obtain ⟨t', ht', r0, r1, r2, r3, r4⟩ := nanMat_tridiag h1 h2
  rw [ht'] at ht
  obtain rfl : t' = t := by simpa using ht
  obtain ⟨Q, rfl⟩ := Option.isSome_iff_exists.mp q1
  have hQ : HasShape Q 3 3 := hq Q rfl
  have ol : t'.offDiagonal.len = 2 := sh.len
  have dn : t'.diagMatrix.nr = 3 := sh.nr
  have dc : t'.diagMatrix.nc = 3 := sh.nc
  generalize hd : t'.intoDiagonals.1 = d at *
  generalize ho : t'.intoDiagonals.2 = o at *
  have d0 : d.get 0 = pw true (1 - k) := by rw [← hd]; exact r0
  have d1 : d.get 1 = zr false := by rw [← hd]; exact r1
  have d2 : d.get 2 = zr false := by rw [← hd]; exact r2
  have o0 : o.get 0 = pw false 0 := by
    rw [← ho]
    simp only [TridiagonalDecomp.intoDiagonals, Arr1.map, r3]
    rfl
  have o1 : o.get 1 = pw false (-k) := by
    rw [← ho]
    simp only [TridiagonalDecomp.intoDiagonals, Arr1.map, r4]
    rfl
  have dl : d.len = 3 := by rw [← hd]; simp [TridiagonalDecomp.intoDiagonals, Arr2.diag, dn, dc]
  have ol' : o.len = 2 := by rw [← ho]; exact ol
  have delim : ∀ (d o : Arr1 𝔽), d.len = 3 → o.len = 2 → d.get 0 = pw true (1 - k) → d.get 1 = zr false → d.get 2 = zr false →
      o.get 0 = pw false 0 → (∃ s j, o.get 1 = pw s j) → delimitSubproblem d o 2 NdFloat.epsilon = .ok (o, 0, 2) := by
    rintro d o dl ol d0 d1 d2 o0 ⟨s, j, o1⟩
    have l1 : NdFloat.lt (NdFloat.epsilon * (NdFloat.abs (zr false) + NdFloat.abs (zr false)))
        (NdFloat.abs (pw s j)) = true := by pws
    have l2 : NdFloat.le (NdFloat.abs (pw false 0)) (NdFloat.epsilon * (NdFloat.abs (zr false) + NdFloat.abs (pw true (1 - k)))) = false := by
      pws
    simp [delimitSubproblem, delimitEnd, delimitStart, Arr1.at, dl, ol, d0, d1, d2, o0, o1, ok_bind, l1, l2, isZero_pw]
  have e1 := delim d o dl ol' d0 d1 d2 o0 ⟨_, _, o1⟩
  rw [show (nanMat k).nr - 1 = 2 from rfl, e1] at hdl
  simp only [Except.ok.injEq, Prod.mk.injEq] at hdl
  obtain ⟨rfl, rfl, rfl⟩ := hdl
  obtain ⟨d', o', Q', s1, dl1, ol1, hQ1, a0, a1, a2, a3, a4⟩ := nanMat_sweep1 h1 h2 d o Q dl ol' hQ d0 d1 d2 o0 o1
  obtain ⟨d'', o'', Q'', s2, dl2, ol2, hQ2, b0, b1, b2⟩ := nanMat_sweep2 h1 h2 d' o' Q' dl1 ol1 hQ1 a0 a1 a2 a3 a4
  have e2 := delim d' o' dl1 ol1 a0 a1 a2 a3 ⟨_, _, a4⟩
  have e3 : delimitSubproblem d'' o'' 2 NdFloat.epsilon = .ok (o'', 0, 0) := by
    simp [delimitSubproblem, delimitEnd, Arr1.at, dl2, ol2, b0, b1, ok_bind, abs_nan, lt_nan]
  have st1 : eigStep NdFloat.epsilon ⟨d, o, some Q, 0, 2⟩ = .ok ⟨d', o', some Q', 0, 2⟩ := by
    simp [eigStep, s1, e2, ok_bind]
  have st2 : eigStep NdFloat.epsilon ⟨d', o', some Q', 0, 2⟩ = .ok ⟨d'', o'', some Q'', 0, 0⟩ := by
    simp [eigStep, s2, e3, ok_bind]
  have lp : eigLoop NdFloat.epsilon (fuel + 2) ⟨d, o, some Q, 0, 2⟩ = .ok ⟨d'', o'', some Q'', 0, 0⟩ := by
    rw [eigLoop, if_neg (by show ¬ 2 = 0; omega), st1, ok_bind, eigLoop, if_neg (by show ¬ 2 = 0; omega), st2, ok_bind]
    cases fuel <;> rfl
  rw [lp] at hrun
  refine ⟨_, _, hrun, dl2, hQ2, ?_, b2⟩
  intro i hi
  show d''.get i * _ = _
  rw [b0 i hi, nan_mul]
end LinfaLinalg
