import Verif.Proofs.PowerScaling
import Verif.Props.Scaling
import Verif.Props.Rounding
import Verif.Model.Norm

/-! # C129: scaling rows and columns by powers of two changes no rounding in the direct solvers

Scaling the unknowns of a linear system or of a least-squares problem (the columns of the matrix) by powers of two, or
the rows and columns of a positive definite matrix by the same powers, is a common preprocessing step. Here it has no
effect: the computed results differ by exactly these powers, digit for digit, and so do the errors which are returned. -/

set_option linter.unusedSectionVars false

namespace LinfaLinalg

section generic
variable {G : Type} [AddCommGroup G]
variable {α : Type} [Zero α] [One α] [Add α] [Sub α] [Mul α] [Div α] [Neg α] [NdFloat α]

/-- The second computation fails like the first one, or succeeds like it with a result related by `P`. -/
def Mirrors {β γ : Type} (P : β → γ → Prop) (m : M β) (m' : M γ) : Prop :=
  (∀ x, m = .ok x → ∃ y, m' = .ok y ∧ P x y) ∧ ∀ f, m = .error f → m' = .error f

theorem RelM.mirrors {β γ : Type} {P : β → γ → Prop} {m : M β} {m' : M γ} (h : RelM P m m') : Mirrors P m m' := by
  cases m with
  | ok x =>
    cases m' with
    | ok y => exact ⟨fun _ e => by cases e; exact ⟨y, rfl, h⟩, fun _ e => by cases e⟩
    | error f => exact h.elim
  | error f =>
    cases m' with
    | ok y => exact h.elim
    | error f' =>
      obtain rfl : f = f' := h
      exact ⟨fun _ e => (by cases e), fun _ e => (by cases e; rfl)⟩

/-- C129: `cholesky(D A D)` is `D` times `cholesky(A)`, with the same errors. -/
theorem C129_cholesky (S : Scalings G α) (d : Nat → G) (a a' : Arr2 α) (h : ScaledBy S.act (fun i j => d i + d j) a a') :
    Mirrors (ScaledBy S.act fun i _ => d i) (cholesky a) (cholesky a') := (scaled_cholesky S h).mirrors

/-- C129: solving with `D A D` and the right-hand sides `D B F` by Cholesky's decomposition gives `D⁻¹ X F`. -/
theorem C129_solvec (S : Scalings G α) (d f : Nat → G) (a a' b b' : Arr2 α)
    (h : ScaledBy S.act (fun i j => d i + d j) a a') (hb : ScaledBy S.act (fun i j => d i + f j) b b') :
    Mirrors (ScaledBy S.act fun i j => f j - d i) (solvec a b) (solvec a' b') := (scaled_solvec S h hb).mirrors

/-- C129: the inverse of `D A D` by Cholesky's decomposition is `D⁻¹ A⁻¹ D⁻¹`. -/
theorem C129_invc (S : Scalings G α) (d : Nat → G) (a a' : Arr2 α) (h : ScaledBy S.act (fun i j => d i + d j) a a') :
    Mirrors (ScaledBy S.act fun i j => -d j - d i) (invc a) (invc a') := (scaled_invc S h).mirrors

/-- C129: solving a triangular system with the matrix `D L E` and the right-hand sides `D B F` gives `E⁻¹ X F`. -/
theorem C129_solve_triangular (S : Scalings G α) (d e f : Nat → G) (a a' b b' : Arr2 α) (uplo : UPLO)
    (h : ScaledBy S.act (fun i j => d i + e j) a a') (hb : ScaledBy S.act (fun i j => d i + f j) b b') :
    Mirrors (ScaledBy S.act fun i j => f j - e i) (solveTriangular a b uplo) (solveTriangular a' b' uplo) :=
  (scaled_solveSystem S uplo h.nr h.nc (fun r c hr hc _ => h.get r c hr hc) (fun i _ => h.at i i) hb).mirrors

/-- C129: `qr(A E)`. The factor `R` is `R E`, the answer of `is_invertible` is the same, and if it is yes, then so is
`Q`. -/
theorem C129_qr (S : Scalings G α) (e : Nat → G) (a a' : Arr2 α) (h : ScaledBy S.act (fun _ j => e j) a a') :
    Mirrors (fun q q' => q'.isInvertible = q.isInvertible ∧
      Mirrors (ScaledBy S.act fun _ j => e j) q.intoR q'.intoR ∧
      (q.isInvertible = true → Mirrors (fun x y => y.nr = x.nr ∧ y.nc = x.nc ∧
        ∀ i j, i < x.nr → j < x.nc → y.get i j = x.get i j) q.generateQ q'.generateQ))
      (qrInto a) (qrInto a') := by
  refine (relM_mono (scaled_qrInto S h) ?_).mirrors
  rintro q q' ⟨h1, h2, h3, h4, h5⟩
  rw [← h2] at h5
  refine ⟨isInvertible_scaled S (by omega) h5, (scaled_intoR S (by omega) (by omega) h5).mirrors, fun hi => ?_⟩
  refine (relM_mono (scaled_generateQ S ⟨by omega, by omega, h5, hi⟩) ?_).mirrors
  intro x y hxy
  exact ⟨hxy.nr, hxy.nc, fun i j hi hj => by rw [hxy.get i j hi hj, S.act_none]⟩

/-- C129: the least-squares solution for `A E` and the right-hand sides `B F` is `E⁻¹ X F`. -/
theorem C129_least_squares (S : Scalings G α) (e f : Nat → G) (a a' b b' : Arr2 α) (ht : a.nc ≤ a.nr)
    (h : ScaledBy S.act (fun _ j => e j) a a') (hb : ScaledBy S.act (fun _ j => f j) b b') :
    Mirrors (ScaledBy S.act fun i j => f j - e i) (leastSquares a b) (leastSquares a' b') :=
  (scaled_leastSquares_tall S ht h hb).mirrors

/-- C129: the least-norm solution of a wide system does not depend on the scale of the equations. -/
theorem C129_least_norm (S : Scalings G α) (d f : Nat → G) (a a' b b' : Arr2 α) (ht : a.nr < a.nc)
    (h : ScaledBy S.act (fun i _ => d i) a a') (hb : ScaledBy S.act (fun i j => d i + f j) b b') :
    Mirrors (ScaledBy S.act fun _ j => f j) (leastSquares a b) (leastSquares a' b') :=
  (scaled_leastSquares_wide S ht h hb).mirrors

/-- C129: the inverse of `A E` by `qr` is `E⁻¹ A⁻¹`. -/
theorem C129_inverse (S : Scalings G α) (e : Nat → G) (a a' : Arr2 α) (h : ScaledBy S.act (fun _ j => e j) a a') :
    Mirrors (ScaledBy S.act fun i _ => -e i) (qrInto a >>= QRDecomp.inverse) (qrInto a' >>= QRDecomp.inverse) := by
  refine (relM_bind (scaled_qrInto S h) ?_).mirrors
  rintro q q' ⟨h1, h2, h3, h4, h5⟩
  rw [← h2] at h5
  have hn : q'.qr.nr = q.qr.nr := h5.nr
  have hc : q'.qr.nc = q.qr.nc := h5.nc
  have hl : q'.diag.len = q.diag.len := h5.len
  unfold QRDecomp.inverse checkSquare
  rw [hn, hc, hl]
  split
  · rfl
  · simp only [ok_bind]
    refine relM_mono (scaled_solveInto S (f := fun _ => 0) (by omega) (by omega) h5
      ⟨rfl, rfl, fun i j _ _ => (S.act_none _).symm⟩) fun x y hxy => hxy.congr fun i j _ _ => zero_sub _

/-- C129: the norms are homogeneous. -/
theorem C129_norms (S : Scalings G α) (g : G) (l : List α) :
    normL1 (l.map (S.act g)) = S.act g (normL1 l) ∧ normL2 (l.map (S.act g)) = S.act g (normL2 l) ∧
      normMax (l.map (S.act g)) = S.act g (normMax l) := by
  unfold normL1 normL2 normMax
  refine ⟨?_, ?_, ?_⟩
  · have := foldl_scaled S g (fun s x => s + NdFloat.abs x) (fun s x => s + NdFloat.abs (S.act g x))
      (fun s x => by rw [S.abs, S.add]) l 0
    rw [S.act_zero] at this
    simpa only [List.foldl_map, List.map_map, Function.comp_def] using this
  · rw [← S.sqrt]
    have := foldl_scaled S (g + g) (fun s x => s + x * x) (fun s x => s + S.act g x * S.act g x)
      (fun s x => by rw [S.mul, S.add]) l 0
    rw [S.act_zero] at this
    simp only [List.foldl_map, List.map_map, Function.comp_def]
    rw [this]
  · have := foldl_scaled S g (fun s x => NdFloat.max (NdFloat.abs x) s) (fun s x => NdFloat.max (NdFloat.abs (S.act g x)) s)
      (fun s x => by rw [S.abs, S.max]) l 0
    rw [S.act_zero] at this
    simpa only [List.foldl_map] using this

end generic

/-! ## Floating-point numbers with an unbounded exponent -/

/-- The rounding and the kernel for inner products treat all exponents alike. -/
structure ExponentFree (R : StdModel) : Prop where
  rnd : ∀ (k : ℤ) x, R.rnd (2 ^ k * x) = 2 ^ k * R.rnd x
  dot : ∀ (j k : ℤ) l, R.dot (l.map fun p => (2 ^ j * p.1, 2 ^ k * p.2)) = 2 ^ (j + k) * R.dot l

/-- Multiplication by powers of two. -/
noncomputable def twoPowers (R : StdModel) (h : ExponentFree R) : Scalings ℤ (Rnd R) where
  act k x := ⟨2 ^ k * x.v⟩
  act_none x := by ext; simp
  act_zero k := by ext; simp
  add k x y := by ext; simp only [Rnd.add_v]; rw [← mul_add, h.rnd]
  sub k x y := by ext; simp only [Rnd.sub_v]; rw [← mul_sub, h.rnd]
  neg k x := by ext; simp only [Rnd.neg_v]; ring
  mul j k x y := by
    ext
    simp only [Rnd.mul_v]
    rw [← h.rnd, zpow_add₀ (by norm_num)]
    congr 1
    ring
  div j k x y := by
    ext
    simp only [Rnd.div_v]
    rw [← h.rnd, zpow_sub₀ (by norm_num), mul_div_mul_comm]
  sqrt k x := by
    ext
    simp only [Rnd.sqrt_v]
    rw [← h.rnd, zpow_add₀ (by norm_num), Real.sqrt_mul (by positivity), Real.sqrt_mul_self (by positivity)]
  abs k x := by
    ext
    simp only [Rnd.abs_v]
    rw [abs_mul, abs_of_pos (by positivity)]
  max k x y := by
    ext
    simp only [Rnd.max_v]
    rw [mul_max_of_nonneg _ _ (by positivity)]
  signum k x := by
    have hk : (0 : ℝ) < 2 ^ k := by positivity
    ext
    simp only [Rnd.signum_v, mul_neg_iff, hk, true_and, not_lt.2 hk.le, false_and, or_false]
  isZero k x := by
    have hk : (2 : ℝ) ^ k ≠ 0 := by positivity
    simp only [Rnd.isZero_v, mul_eq_zero, hk, false_or]
  le_zero k x := by
    have hk : (0 : ℝ) < 2 ^ k := by positivity
    simp only [Rnd.le_v, Rnd.zero_v, decide_eq_decide]
    exact mul_nonpos_iff_pos_imp_nonpos.trans ⟨fun h' => h'.1 hk, fun h' => ⟨fun _ => h', fun _ => hk.le⟩⟩
  zero_isZero := by simp
  dot j k l := by
    ext
    change R.dot _ = 2 ^ (j + k) * R.dot _
    rw [← h.dot, List.map_map, List.map_map]
    rfl

theorem binRound_zpow_mul (p : Nat) (k : ℤ) (x : ℝ) : binRound p (2 ^ k * x) = 2 ^ k * binRound p x := by
  by_cases hx : x = 0
  · subst hx
    simp [binRound, roundEven]
  · have hk : (0 : ℝ) < 2 ^ k := by positivity
    unfold binRound
    rw [abs_mul, abs_of_pos hk, intLog_zpow_mul k (abs_pos.2 hx), show k + Int.log 2 |x| + 1 - (p : ℤ) =
      k + (Int.log 2 |x| + 1 - p) by ring, zpow_add₀ (by norm_num), mul_div_mul_left _ _ hk.ne']
    ring

theorem DotPlan.rval_scaled {rnd : ℝ → ℝ} (h : ∀ (k : ℤ) x, rnd (2 ^ k * x) = 2 ^ k * rnd x) (j k : ℤ) (l : List (ℝ × ℝ))
    (p : DotPlan) : p.rval rnd (l.map fun p => (2 ^ j * p.1, 2 ^ k * p.2)) = 2 ^ (j + k) * p.rval rnd l := by
  have hg : ∀ i, (l.map fun p => ((2 : ℝ) ^ j * p.1, (2 : ℝ) ^ k * p.2)).getD i (0, 0) =
      (2 ^ j * (l.getD i (0, 0)).1, 2 ^ k * (l.getD i (0, 0)).2) := by
    intro i
    rw [List.getD_eq_getElem?_getD, List.getD_eq_getElem?_getD, List.getElem?_map]
    cases l[i]? <;> simp
  induction p with
  | zero => simp [DotPlan.rval, DotPlan.eval]
  | prod i =>
    unfold DotPlan.rval DotPlan.eval
    rw [hg, ← h, zpow_add₀ (by norm_num)]
    congr 1
    ring
  | add s t hs ht =>
    unfold DotPlan.rval at hs ht ⊢
    unfold DotPlan.eval
    rw [hs, ht, ← mul_add, h]
  | fma s i hs =>
    unfold DotPlan.rval at hs ⊢
    unfold DotPlan.eval
    rw [hs, hg, ← h, zpow_add₀ (by norm_num)]
    congr 1
    ring

/-- `f64` without overflow and underflow, with ndarray's order of summation. -/
theorem double_exponentFree : ExponentFree StdModel.double where
  rnd := binRound_zpow_mul 53
  dot j k l := by
    change (DotPlans.unrolled.plan _).rval _ _ = _ * (DotPlans.unrolled.plan _).rval _ _
    rw [List.length_map]
    exact DotPlan.rval_scaled (binRound_zpow_mul 53) j k l _

/-- Exact arithmetic. -/
theorem exact_exponentFree : ExponentFree StdModel.exact where
  rnd _ _ := rfl
  dot j k l := by
    have := DotPlan.rval_scaled (rnd := fun x => x) (fun _ _ => rfl) j k l (DotPlans.sequential.plan l.length)
    unfold StdModel.exact
    simp only [List.length_map]
    exact this

/-- C129 for `f64` as long as nothing overflows or underflows: the least-squares solution after column scaling by powers
of two is, digit for digit, the one without, scaled back. -/
theorem C129_least_squares_double (e : Nat → ℤ) (a a' b x : Arr2 (Rnd StdModel.double)) (ht : a.nc ≤ a.nr)
    (hr : a'.nr = a.nr) (hc : a'.nc = a.nc)
    (h : ∀ i j, i < a.nr → j < a.nc → (a'.get i j).v = 2 ^ e j * (a.get i j).v) (hx : leastSquares a b = .ok x) :
    ∃ y, leastSquares a' b = .ok y ∧ y.nr = x.nr ∧ y.nc = x.nc ∧
      ∀ i j, i < x.nr → j < x.nc → 2 ^ e i * (y.get i j).v = (x.get i j).v := by
  let S := twoPowers _ double_exponentFree
  obtain ⟨y, h1, h2⟩ := (C129_least_squares S e (fun _ => 0) a a' b b ht
    ⟨hr, hc, fun i j hi hj => Rnd.ext (h i j hi hj)⟩ ⟨rfl, rfl, fun i j _ _ => (S.act_none _).symm⟩).1 x hx
  refine ⟨y, h1, h2.nr, h2.nc, fun i j hi hj => ?_⟩
  have := congrArg Rnd.v (h2.get i j hi hj)
  change (y.get i j).v = 2 ^ (0 - e i) * (x.get i j).v at this
  rw [this, ← mul_assoc, ← zpow_add₀ (by norm_num), add_sub_cancel, zpow_zero, one_mul]

/-- C129 for `f64` as long as nothing overflows or underflows: scaling a positive definite matrix to another diagonal by
powers of two does not improve the decomposition. -/
theorem C129_cholesky_double (d : Nat → ℤ) (a a' L : Arr2 (Rnd StdModel.double)) (hr : a'.nr = a.nr) (hc : a'.nc = a.nc)
    (h : ∀ i j, i < a.nr → j < a.nc → (a'.get i j).v = 2 ^ (d i + d j) * (a.get i j).v) (hL : cholesky a = .ok L) :
    ∃ L', cholesky a' = .ok L' ∧ L'.nr = L.nr ∧ L'.nc = L.nc ∧
      ∀ i j, i < L.nr → j < L.nc → (L'.get i j).v = 2 ^ d i * (L.get i j).v := by
  obtain ⟨L', h1, h2⟩ := (C129_cholesky (twoPowers _ double_exponentFree) d a a'
    ⟨hr, hc, fun i j hi hj => Rnd.ext (h i j hi hj)⟩).1 L hL
  exact ⟨L', h1, h2.nr, h2.nc, fun i j hi hj => congrArg Rnd.v (h2.get i j hi hj)⟩

/-- `[[4, 2], [2, 5]]` scaled by `diag(2, 1/8)`. -/
noncomputable def exRndScaled : Arr2 (Rnd .double) :=
  ⟨2, 2, fun i j => ⟨(ofRows 2 2 [[16, 1 / 2], [1 / 2, 5 / 64]]).get i j⟩⟩

/-- The powers of two in it. -/
def exPowers (i : Nat) : ℤ := if i = 0 then 1 else -3

/-- In double precision. -/
example : ∃ L L', cholesky (exRndSpd .double) = .ok L ∧ cholesky exRndScaled = .ok L' ∧
    ∀ i j, i < L.nr → j < L.nc → (L'.get i j).v = 2 ^ exPowers i * (L.get i j).v := by
  obtain ⟨L, hL⟩ := exRndSpd_succeeds.2.2.1
  obtain ⟨L', h1, -, -, h2⟩ := C129_cholesky_double exPowers (exRndSpd .double) exRndScaled L rfl rfl
    (by
      intro i j (hi : i < 2) (hj : j < 2)
      interval_cases i <;> interval_cases j <;> norm_num [exRndSpd, exRndScaled, exPowers, ofRows, zpow_neg]) hL
  exact ⟨L, L', hL, h1, h2⟩

end LinfaLinalg
