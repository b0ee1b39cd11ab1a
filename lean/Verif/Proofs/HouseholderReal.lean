import Verif.Proofs.Householder
import Verif.Spec.Real
import Mathlib.Algebra.BigOperators.Field

/-! # Householder routines over the reals -/

namespace LinfaLinalg

open Matrix

/-- The matrix of the (signed) reflection which acts on the rows `≥ p`. -/
noncomputable def house (m p : Nat) (s : ℝ) (w : Nat → ℝ) : Matrix (Fin m) (Fin m) ℝ :=
  Matrix.of fun r c =>
    if (r : Nat) < p then (if r = c then 1 else 0) else s * ((if r = c then 1 else 0) - 2 * w r * w c)

/-- `w` is supported on `≥ p` and is a unit vector or zero; `s` is a sign. -/
structure HouseOk (m p : Nat) (s : ℝ) (w : Nat → ℝ) : Prop where
  supp : ∀ r, r < p → w r = 0
  sign : s * s = 1
  unit : ∀ r, r < m → w r * (1 - ∑ k ∈ Finset.range m, w k * w k) = 0

theorem house_mul_apply {m k p : Nat} {s : ℝ} {w : Nat → ℝ} (X : Matrix (Fin m) (Fin k) ℝ)
    (r : Fin m) (j : Fin k) :
    (house m p s w * X) r j = if (r : Nat) < p then X r j
      else s * (X r j - 2 * w r * ∑ c : Fin m, w c * X c j) := by
  rw [Matrix.mul_apply]
  by_cases hr : (r : Nat) < p
  · simp [house, hr]
  · simp only [house, Matrix.of_apply, if_neg hr]
    have : ∀ c : Fin m, s * ((if r = c then 1 else 0) - 2 * w r * w c) * X c j =
        (if r = c then s * X c j else 0) - s * (2 * w r * (w c * X c j)) := by
      intro c
      by_cases hc : r = c
      · simp only [if_pos hc]; ring
      · simp only [if_neg hc]; ring
    rw [Finset.sum_congr rfl fun c _ => this c, Finset.sum_sub_distrib, Finset.sum_ite_eq,
      if_pos (Finset.mem_univ _), ← Finset.mul_sum, ← Finset.mul_sum]
    ring

theorem house_symm {m p : Nat} {s : ℝ} {w : Nat → ℝ} (h : HouseOk m p s w) :
    (house m p s w)ᵀ = house m p s w := by
  ext r c
  simp only [Matrix.transpose_apply, house, Matrix.of_apply]
  by_cases hrc : r = c
  · subst hrc; rfl
  · have hcr : ¬ c = r := fun h => hrc h.symm
    rw [if_neg hrc, if_neg hcr]
    by_cases h1 : (c : Nat) < p
    · rw [if_pos h1, h.supp c h1]
      by_cases h2 : (r : Nat) < p <;> simp [h2]
    · rw [if_neg h1]
      by_cases h2 : (r : Nat) < p
      · rw [if_pos h2, h.supp r h2]; simp
      · rw [if_neg h2]; ring

theorem house_mul_self {m p : Nat} {s : ℝ} {w : Nat → ℝ} (h : HouseOk m p s w) :
    house m p s w * house m p s w = 1 := by
  have key : ∀ X : Matrix (Fin m) (Fin m) ℝ, house m p s w * (house m p s w * X) = X := by
    intro X
    ext r j
    rw [house_mul_apply]
    by_cases hr : (r : Nat) < p
    · rw [if_pos hr, house_mul_apply, if_pos hr]
    · rw [if_neg hr, house_mul_apply, if_neg hr]
      set σ := ∑ c : Fin m, w c * X c j with hσ
      have hsum : ∑ c : Fin m, w c * (house m p s w * X) c j =
          s * σ * (1 - 2 * ∑ k ∈ Finset.range m, w k * w k) := by
        have : ∀ c : Fin m, w c * (house m p s w * X) c j =
            s * (w c * X c j) - s * (2 * σ * (w c * w c)) := by
          intro c
          rw [house_mul_apply]
          by_cases hc : (c : Nat) < p
          · rw [if_pos hc, h.supp c hc]; ring
          · rw [if_neg hc]; ring
        rw [Finset.sum_congr rfl fun c _ => this c, Finset.sum_sub_distrib, ← Finset.mul_sum,
          ← hσ, ← Finset.mul_sum, ← Finset.mul_sum, Finset.sum_range (fun k => w k * w k)]
        ring
      rw [hsum]
      have h1 := h.unit r r.2
      have h2 := h.sign
      linear_combination (X r j - 2 * w r * σ - 2 * w r * σ *
        (1 - 2 * ∑ k ∈ Finset.range m, w k * w k)) * h2 - 4 * σ * h1
  have := key 1
  rwa [Matrix.mul_one] at this

theorem house_mul_cancel {m k p : Nat} {s : ℝ} {w : Nat → ℝ} (h : HouseOk m p s w)
    (X : Matrix (Fin m) (Fin k) ℝ) : house m p s w * (house m p s w * X) = X := by
  rw [← Matrix.mul_assoc, house_mul_self h, Matrix.one_mul]

theorem house_orth {m p : Nat} {s : ℝ} {w : Nat → ℝ} (h : HouseOk m p s w) :
    (house m p s w)ᵀ * house m p s w = 1 := by
  rw [house_symm h, house_mul_self h]

/-- Multiplication by a reflection whose vector vanishes on the support of `X` does nothing. -/
theorem house_mul_of_disjoint {m k p : Nat} {s : ℝ} {w : Nat → ℝ} (h : HouseOk m p s w)
    (X : Matrix (Fin m) (Fin k) ℝ) (j : Fin k) (hX : ∀ r : Fin m, p ≤ (r : Nat) → X r j = 0)
    (r : Fin m) : (house m p s w * X) r j = X r j := by
  rw [house_mul_apply]
  by_cases hr : (r : Nat) < p
  · rw [if_pos hr]
  · rw [if_neg hr]
    have : ∑ c : Fin m, w c * X c j = 0 := by
      apply Finset.sum_eq_zero
      intro c _
      by_cases hc : (c : Nat) < p
      · rw [h.supp c hc, zero_mul]
      · rw [hX c (by omega), mul_zero]
    rw [this, hX r (by omega)]; ring

/-- `P 0 * P 1 * ⋯ * P (n-1)`. -/
def prodP {m : Nat} (P : Nat → Matrix (Fin m) (Fin m) ℝ) : Nat → Matrix (Fin m) (Fin m) ℝ
  | 0 => 1
  | n + 1 => prodP P n * P n

theorem prodP_congr {m : Nat} {P P' : Nat → Matrix (Fin m) (Fin m) ℝ} {n : Nat}
    (h : ∀ k, k < n → P k = P' k) : prodP P n = prodP P' n := by
  induction n with
  | zero => rfl
  | succ n ih => rw [prodP, prodP, ih fun k hk => h k (by omega), h n (by omega)]

theorem prodP_orth {m : Nat} {P : Nat → Matrix (Fin m) (Fin m) ℝ} {n : Nat}
    (h : ∀ k, k < n → (P k)ᵀ * P k = 1) : (prodP P n)ᵀ * prodP P n = 1 := by
  induction n with
  | zero => simp [prodP]
  | succ n ih =>
    rw [prodP, Matrix.transpose_mul, Matrix.mul_assoc, ← Matrix.mul_assoc (prodP P n)ᵀ,
      ih fun k hk => h k (by omega), Matrix.one_mul, h n (by omega)]

/-- What `reflection_axis_mut` computes from the column `x` of length `n`. -/
structure ReflSpec (n : Nat) (x w : Nat → ℝ) (ν : ℝ) : Prop where
  refl : ∀ r, r < n →
    x r - 2 * w r * ∑ k ∈ Finset.range n, w k * x k = if r = 0 then ν else 0
  unit : ∀ r, r < n → w r * (1 - ∑ k ∈ Finset.range n, w k * w k) = 0
  zero : ν = 0 → ∀ r, r < n → w r = 0
  nonzero : ν ≠ 0 → ∑ k ∈ Finset.range n, w k * w k = 1
  norm : ν * ν = ∑ k ∈ Finset.range n, x k * x k

theorem real_signum_sq (x : ℝ) : (NdFloat.signum x : ℝ) * NdFloat.signum x = 1 := by
  rw [real_signum]; split <;> norm_num

theorem real_signum_mul_self (x : ℝ) : NdFloat.signum x * x = |x| := by
  rw [real_signum]
  split
  · rename_i h; rw [abs_of_neg h]; ring
  · rename_i h; rw [abs_of_nonneg (not_lt.1 h)]; ring

theorem real_signum_mul_abs (x : ℝ) : NdFloat.signum x * |x| = x := by
  rw [← real_signum_mul_self, ← mul_assoc, real_signum_sq, one_mul]

theorem reflectionAxisMut_real (col : Arr1 ℝ) (h : 0 < col.len) :
    ∃ w o, reflectionAxisMut col = .ok (w, o) ∧ w.len = col.len ∧
      ReflSpec col.len col.get w.get (o.getD 0) ∧ (o = none ↔ o.getD 0 = 0) := by
  set n := col.len with hn
  set x := col.get with hx
  set q : ℝ := ∑ k ∈ Finset.range n, x k * x k with hq
  have hq0 : 0 ≤ q := Finset.sum_nonneg fun k _ => mul_self_nonneg _
  set N := Real.sqrt q with hN
  have hNN : N * N = q := Real.mul_self_sqrt hq0
  have hN0 : 0 ≤ N := Real.sqrt_nonneg _
  set s : ℝ := NdFloat.signum (x 0) with hs
  have hss : s * s = 1 := real_signum_sq _
  have hsx : s * x 0 = |x 0| := real_signum_mul_self _
  set y : Nat → ℝ := fun k => if k = 0 then x 0 + s * N else x k with hy
  set Z : ℝ := (q + |x 0| * N) * 2 with hZ
  have hZ0 : 0 ≤ Z := by
    have := mul_nonneg (abs_nonneg (x 0)) hN0
    simp only [hZ]; linarith
  have split0 : ∀ f : Nat → ℝ, ∑ k ∈ Finset.range n, f k =
      f 0 + ∑ k ∈ Finset.range (n - 1), f (k + 1) := by
    intro f
    obtain ⟨m, hm⟩ : ∃ m, n = m + 1 := ⟨n - 1, by omega⟩
    rw [hm, Finset.sum_range_succ', Nat.add_sub_cancel]; ring
  have hyx : ∑ k ∈ Finset.range n, y k * x k = q + |x 0| * N := by
    rw [split0, hq, split0 (fun k => x k * x k)]
    simp only [hy, if_true, Nat.add_one_ne_zero, if_false]
    rw [← hsx]; ring
  have hyy : ∑ k ∈ Finset.range n, y k * y k = Z := by
    rw [hZ, hq, split0 (fun k => x k * x k), split0]
    simp only [hy, if_true, Nat.add_one_ne_zero, if_false]
    have e1 : s * N * (s * N) = q := by
      calc s * N * (s * N) = (s * s) * (N * N) := by ring
        _ = q := by rw [hss, hNN, one_mul]
    rw [hq, split0 (fun k => x k * x k)] at e1
    rw [← hsx]
    linear_combination e1
  have hres : reflectionAxisMut col = if Z = 0 then .ok (⟨n, y⟩, none)
      else .ok (⟨n, fun k => y k / Real.sqrt Z⟩, some (-(s * N))) := by
    unfold reflectionAxisMut
    simp only [Arr1.dot, if_true, ok_bind]
    rw [Arr1.idx_ok h]
    simp only [ok_bind]
    rw [Arr1.idxSet_ok h]
    simp only [ok_bind, dotTo_eq, real_sqrt, real_abs, real_ofRat, real_isZero]
    have hz : (∑ k ∈ Finset.range col.len, col.get k * col.get k +
        |col.get 0| * √(∑ k ∈ Finset.range col.len, col.get k * col.get k)) * ((2 : ℚ) : ℝ) = Z := by
      simp only [hZ, hN, hq, hx, hn]; norm_num
    rw [hz]
    by_cases hZz : Z = 0
    · simp only [hZz, decide_true, Bool.not_true, Bool.false_eq_true, if_false, if_true]
      rfl
    · simp only [hZz, decide_false, Bool.not_false, if_true, if_false]
      rfl
  rw [hres]
  by_cases hZz : Z = 0
  · rw [if_pos hZz]
    have hqz : q = 0 := by
      have := mul_nonneg (abs_nonneg (x 0)) hN0
      simp only [hZ] at hZz; linarith
    have hNz : N = 0 := by rw [hN, hqz, Real.sqrt_zero]
    have hxz : ∀ r, r < n → x r = 0 := by
      intro r hr
      have := (Finset.sum_eq_zero_iff_of_nonneg (fun k _ => mul_self_nonneg (x k))).1 hqz r
        (Finset.mem_range.2 hr)
      exact mul_self_eq_zero.1 this
    have hyz : ∀ r, r < n → y r = 0 := by
      intro r hr
      simp only [hy]
      split
      · rw [hxz 0 h, hNz]; ring
      · exact hxz r hr
    refine ⟨_, _, rfl, rfl, ⟨?_, ?_, ?_, ?_, ?_⟩, by simp⟩
    · intro r hr
      simp only [Option.getD_none]
      rw [hxz r hr, hyz r hr]
      simp
    · intro r hr
      simp only
      rw [hyz r hr]; ring
    · intro _ r hr; exact hyz r hr
    · intro h0; simp at h0
    · simp only [Option.getD_none]; rw [← hq, hqz]; ring
  · rw [if_neg hZz]
    have hZpos : 0 < Z := lt_of_le_of_ne hZ0 (Ne.symm hZz)
    have hR : Real.sqrt Z * Real.sqrt Z = Z := Real.mul_self_sqrt hZ0
    have hRpos : 0 < Real.sqrt Z := Real.sqrt_pos.2 hZpos
    have hNz : N ≠ 0 := by
      intro hNz
      apply hZz
      have : q = 0 := by rw [← hNN, hNz]; ring
      simp only [hZ, this, hNz]; ring
    have hsN : s * N ≠ 0 := by
      intro h0
      rcases mul_eq_zero.1 h0 with h0 | h0
      · rw [h0] at hss; norm_num at hss
      · exact hNz h0
    have hww : ∑ k ∈ Finset.range n, y k / Real.sqrt Z * (y k / Real.sqrt Z) = 1 := by
      have : ∀ k, y k / Real.sqrt Z * (y k / Real.sqrt Z) = y k * y k / Z := by
        intro k; rw [div_mul_div_comm, hR]
      rw [Finset.sum_congr rfl fun k _ => this k, ← Finset.sum_div, hyy, div_self hZz]
    refine ⟨_, _, rfl, rfl, ⟨?_, ?_, ?_, ?_, ?_⟩, ?_⟩
    · intro r hr
      simp only [Option.getD_some]
      have e1 : ∑ k ∈ Finset.range n, y k / Real.sqrt Z * x k = (q + |x 0| * N) / Real.sqrt Z := by
        rw [← hyx, Finset.sum_div]
        apply Finset.sum_congr rfl
        intro k _; ring
      rw [e1]
      have e2 : 2 * (y r / Real.sqrt Z) * ((q + |x 0| * N) / Real.sqrt Z) = y r := by
        rw [show 2 * (y r / Real.sqrt Z) * ((q + |x 0| * N) / Real.sqrt Z) =
          y r * Z / (Real.sqrt Z * Real.sqrt Z) by simp only [hZ]; ring, hR,
          mul_div_assoc, div_self hZz, mul_one]
      rw [e2]
      simp only [hy]
      split
      · rename_i h0; subst h0; ring
      · ring
    · intro r hr
      simp only
      rw [hww]; ring
    · intro h0
      simp only [Option.getD_some, neg_eq_zero] at h0
      exact absurd h0 hsN
    · intro _; exact hww
    · simp only [Option.getD_some]
      rw [← hq, ← hNN]; linear_combination (N * N) * hss
    · simp [hsN]

/-- The action of `house m p s w` on one column. -/
noncomputable def hApp (m p : Nat) (s : ℝ) (w f : Nat → ℝ) (i : Nat) : ℝ :=
  if i < p then f i else s * (f i - 2 * w i * ∑ k ∈ Finset.range m, w k * f k)

theorem house_mul_hApp {m n p : Nat} {s : ℝ} {w : Nat → ℝ} (X : Matrix (Fin m) (Fin n) ℝ)
    (f : Nat → ℝ) (r : Fin m) (j : Fin n) (hf : ∀ k : Fin m, f k = X k j) :
    (house m p s w * X) r j = hApp m p s w f r := by
  rw [house_mul_apply, hApp, hf r, Finset.sum_range fun k => w k * f k]
  simp only [hf]

theorem sum_range_supp {m p : Nat} (hp : p ≤ m) (f : Nat → ℝ) (h : ∀ k, k < p → f k = 0) :
    ∑ k ∈ Finset.range m, f k = ∑ k ∈ Finset.range (m - p), f (p + k) := by
  obtain ⟨d, rfl⟩ : ∃ d, m = p + d := ⟨m - p, by omega⟩
  rw [Finset.sum_range_add, Nat.add_sub_cancel_left,
    Finset.sum_eq_zero (fun k hk => h k (Finset.mem_range.1 hk)), zero_add]

/-- A vector stored at offset `p`. -/
def shiftVec (p : Nat) (w : Nat → ℝ) (r : Nat) : ℝ := if p ≤ r then w (r - p) else 0

theorem shiftVec_lt {p r : Nat} (w : Nat → ℝ) (h : r < p) : shiftVec p w r = 0 := by
  rw [shiftVec, if_neg (by omega)]

theorem shiftVec_add (p k : Nat) (w : Nat → ℝ) : shiftVec p w (p + k) = w k := by
  rw [shiftVec, if_pos (by omega), Nat.add_sub_cancel_left]

/-- Reflecting and rescaling the block of rows `≥ p` and columns `≥ c0`. -/
theorem blockReflect_real (axis : Arr1 ℝ) (a : Arr2 ℝ) (p c0 : Nat) (s : ℝ)
    (hp : p ≤ a.nr) (hc : c0 ≤ a.nc) (hl : axis.len = a.nr - p) :
    ∃ rows rows', a.slice p a.nr c0 a.nc = .ok rows ∧ reflectCols axis 0 rows = .ok rows' ∧
      (a.put p c0 (rows'.map fun x => x * s)).nr = a.nr ∧
      (a.put p c0 (rows'.map fun x => x * s)).nc = a.nc ∧
      ∀ i j, i < a.nr → (a.put p c0 (rows'.map fun x => x * s)).get i j =
        if c0 ≤ j ∧ j < a.nc then hApp a.nr p s (shiftVec p axis.get) (fun k => a.get k j) i
        else a.get i j := by
  refine ⟨_, _, Arr2.slice_ok hp le_rfl hc le_rfl, reflectCols_eq _ _ _ (by simpa using hl),
    rfl, rfl, ?_⟩
  intro i j hi
  simp only [Arr2.put, Arr2.map]
  by_cases hj : c0 ≤ j ∧ j < a.nc
  · rw [if_pos hj]
    by_cases hip : i < p
    · rw [if_neg (by omega), hApp, if_pos hip]
    · rw [if_pos (by omega), if_pos (by omega), hApp, if_neg hip, reflEntry]
      rw [sum_range_supp hp _ (fun k hk => by rw [shiftVec_lt _ hk, zero_mul])]
      simp only [shiftVec_add, dotTo_eq, hl, real_ofRat]
      rw [shiftVec, if_pos (by omega : p ≤ i)]
      rw [show p + (i - p) = i by omega, show c0 + (j - c0) = j by omega]
      push_cast
      ring
  · rw [if_neg hj, if_neg (by omega)]

/-- What `clear_column` does: the reflection stored in column `icol` is applied to the columns from
`icol` on. -/
structure ClearSpec (a b : Arr2 ℝ) (icol p : Nat) (d : ℝ) : Prop where
  nr : b.nr = a.nr
  nc : b.nc = a.nc
  ok : HouseOk a.nr p (NdFloat.signum d) (fun r => if p ≤ r then b.get r icol else 0)
  left : ∀ i j, j < icol → b.get i j = a.get i j
  top : ∀ i j, i < p → b.get i j = a.get i j
  right : ∀ i j, i < a.nr → icol < j → j < a.nc → b.get i j =
    hApp a.nr p (NdFloat.signum d) (fun r => if p ≤ r then b.get r icol else 0)
      (fun k => a.get k j) i
  col : ∀ i, i < a.nr →
    hApp a.nr p (NdFloat.signum d) (fun r => if p ≤ r then b.get r icol else 0)
      (fun k => a.get k icol) i = if i < p then a.get i icol else if i = p then |d| else 0

theorem hApp_congr {m p : Nat} {s : ℝ} {w w' f : Nat → ℝ} {i : Nat} (hi : i < m)
    (h : ∀ r, r < m → w r = w' r) : hApp m p s w f i = hApp m p s w' f i := by
  unfold hApp
  rw [h i hi, Finset.sum_congr rfl fun k hk => by rw [h k (Finset.mem_range.1 hk)]]

theorem hApp_congr_fun {m p : Nat} {s : ℝ} {w f g : Nat → ℝ} {i : Nat} (hi : i < m)
    (h : ∀ r, r < m → f r = g r) : hApp m p s w f i = hApp m p s w g i := by
  unfold hApp
  rw [h i hi, Finset.sum_congr rfl fun k hk => by rw [h k (Finset.mem_range.1 hk)]]

theorem house_congr {m p : Nat} {s : ℝ} {w w' : Nat → ℝ} (h : ∀ r, r < m → w r = w' r) :
    house m p s w = house m p s w' := by
  ext r c
  simp only [house, Matrix.of_apply, h r r.2, h c c.2]

theorem HouseOk.congr {m p : Nat} {s : ℝ} {w w' : Nat → ℝ} (hw : HouseOk m p s w) (hp : p ≤ m)
    (h : ∀ r, r < m → w r = w' r) : HouseOk m p s w' := by
  refine ⟨fun r hr => ?_, hw.sign, fun r hr => ?_⟩
  · rw [← h r (by omega)]; exact hw.supp r hr
  · have := hw.unit r hr
    rwa [h r hr, Finset.sum_congr rfl fun k hk => by rw [h k (Finset.mem_range.1 hk)]] at this

theorem clearColumn_real (a : Arr2 ℝ) (icol shift : Nat) (hc : icol < a.nc)
    (hr : icol + shift < a.nr) :
    ∃ b d, clearColumn a icol shift = .ok (b, d) ∧ ClearSpec a b icol (icol + shift) d := by
  set p := icol + shift with hp
  unfold clearColumn
  rw [Arr2.colSlice_ok hr.le le_rfl hc]
  simp only [ok_bind]
  obtain ⟨w, o, hw, hl, hs, ho⟩ := reflectionAxisMut_real
    (⟨a.nr - p, fun i => a.get (p + i) icol⟩ : Arr1 ℝ) (by simp; omega)
  rw [← hp, hw]
  simp only at hl hs
  simp only [ok_bind]
  set a1 := a.putCol p icol w with ha1
  have ha1r : a1.nr = a.nr := rfl
  have ha1c : a1.nc = a.nc := rfl
  have hcol : ∀ r, p ≤ r → r < a.nr → a1.get r icol = w.get (r - p) := by
    intro r h1 h2
    simp only [ha1, Arr2.putCol, hl]
    have hlt : r < p + (a.nr - p) := by omega
    rw [if_pos ⟨trivial, h1, hlt⟩]
  have hother : ∀ i j, i < p ∨ j ≠ icol → a1.get i j = a.get i j := by
    intro i j h
    simp only [ha1, Arr2.putCol]
    rw [if_neg (by omega)]
  have hwv : ∀ (b : Arr2 ℝ), (∀ r, b.get r icol = a1.get r icol) → ∀ r, r < a.nr →
      shiftVec p w.get r = if p ≤ r then b.get r icol else 0 := by
    intro b hb r hr
    unfold shiftVec
    split
    · rename_i h; rw [hb, hcol r h hr]
    · rfl
  -- facts about the reflection
  set d : ℝ := o.getD 0 with hd
  have hok : HouseOk a.nr p (NdFloat.signum d) (shiftVec p w.get) := by
    refine ⟨fun r h => shiftVec_lt _ h, real_signum_sq _, fun r h => ?_⟩
    by_cases hrp : r < p
    · rw [shiftVec_lt _ hrp, zero_mul]
    · have := hs.unit (r - p) (by omega)
      rw [sum_range_supp hr.le _ (fun k hk => by rw [shiftVec_lt _ hk, zero_mul])]
      simp only [shiftVec_add]
      rw [shiftVec, if_pos (by omega)]
      exact this
  have hcolr : ∀ i, i < a.nr → hApp a.nr p (NdFloat.signum d) (shiftVec p w.get)
      (fun k => a.get k icol) i = if i < p then a.get i icol else if i = p then |d| else 0 := by
    intro i hi
    unfold hApp
    by_cases hip : i < p
    · rw [if_pos hip, if_pos hip]
    · rw [if_neg hip, if_neg hip, sum_range_supp hr.le _
        (fun k hk => by rw [shiftVec_lt _ hk, zero_mul])]
      simp only [shiftVec_add]
      have := hs.refl (i - p) (by omega)
      rw [show p + (i - p) = i by omega] at this
      rw [shiftVec, if_pos (by omega), this]
      by_cases hipe : i = p
      · rw [if_pos (by omega), if_pos hipe, real_signum_mul_self]
      · rw [if_neg (by omega), if_neg hipe, mul_zero]
  cases o with
  | none =>
    have hd0 : d = 0 := rfl
    rw [hd0] at hok hcolr
    refine ⟨a1, 0, rfl, rfl, rfl, ?_, ?_, ?_, ?_, ?_⟩
    · exact hok.congr hr.le (hwv a1 fun _ => rfl)
    · intro i j hj; exact hother i j (Or.inr (by omega))
    · intro i j hi; exact hother i j (Or.inl hi)
    · intro i j hi h1 h2
      rw [hother i j (Or.inr (by omega)), ← hApp_congr hi (hwv a1 fun _ => rfl)]
      have hwz : ∀ r, r < a.nr → shiftVec p w.get r = 0 := by
        intro r hr
        by_cases hrp : r < p
        · exact shiftVec_lt _ hrp
        · rw [shiftVec, if_pos (by omega)]; exact hs.zero hd0 _ (by omega)
      unfold hApp
      rw [hwz i hi, real_signum, if_neg (lt_irrefl _)]
      split <;> ring
    · intro i hi
      rw [← hApp_congr hi (hwv a1 fun _ => rfl)]
      exact hcolr i hi
  | some ν =>
    have hdν : d = ν := rfl
    rw [hdν] at hok hcolr
    simp only
    obtain ⟨rows, rows', e1, e2, e3, e4, e5⟩ := blockReflect_real w a1 p (icol + 1)
      (NdFloat.signum ν) hr.le hc hl
    rw [ha1r, ha1c] at e1
    rw [ha1r, ha1c, e1]
    simp only [ok_bind]
    rw [e2]
    simp only [ok_bind]
    rw [ha1r, ha1c] at e5
    have hbc : ∀ r, (a1.put p (icol + 1) (rows'.map fun x => x * NdFloat.signum ν)).get r icol =
        a1.get r icol := by
      intro r
      simp only [Arr2.put]
      rw [if_neg (by omega)]
    refine ⟨_, _, rfl, rfl, rfl, ?_, ?_, ?_, ?_, ?_⟩
    · exact hok.congr hr.le (hwv _ hbc)
    · intro i j hj
      simp only [Arr2.put]
      rw [if_neg (by omega), hother i j (Or.inr (by omega))]
    · intro i j hi
      simp only [Arr2.put]
      rw [if_neg (by omega), hother i j (Or.inl hi)]
    · intro i j hi h1 h2
      rw [e5 i j hi, if_pos ⟨h1, h2⟩, ← hApp_congr hi (hwv _ hbc)]
      exact hApp_congr_fun hi fun r _ => hother r j (Or.inr (by omega))
    · intro i hi
      rw [← hApp_congr hi (hwv _ hbc)]
      exact hcolr i hi

/-- The reflection stored in column `k` of `a`, with sign from `d`. -/
noncomputable def storedP (m : Nat) (a : Arr2 ℝ) (shift : Nat) (d : Nat → ℝ) (k : Nat) :
    Matrix (Fin m) (Fin m) ℝ :=
  house m (k + shift) (NdFloat.signum (d k)) fun r => if k + shift ≤ r then a.get r k else 0

/-- The stored reflection is a reflection. -/
def StoredOk (m : Nat) (a : Arr2 ℝ) (shift : Nat) (d : Nat → ℝ) (k : Nat) : Prop :=
  HouseOk m (k + shift) (NdFloat.signum (d k)) fun r => if k + shift ≤ r then a.get r k else 0

/-- The first `d` columns of the identity. -/
def eyeMat (m d : Nat) : Matrix (Fin m) (Fin d) ℝ :=
  Matrix.of fun r c => if (r : Nat) = c then 1 else 0

theorem eyeMat_orth {m d : Nat} (h : d ≤ m) : (eyeMat m d)ᵀ * eyeMat m d = 1 := by
  ext i j
  rw [Matrix.mul_apply, Matrix.one_apply]
  simp only [eyeMat, Matrix.transpose_apply, Matrix.of_apply]
  rw [Finset.sum_eq_single (⟨i, by omega⟩ : Fin m)]
  · simp [Fin.ext_iff]
  · intro b _ hb
    have : (b : Nat) ≠ i := fun h => hb (Fin.ext h)
    simp [this]
  · intro h; exact absurd (Finset.mem_univ _) h

theorem assembleQ_real (a : Arr2 ℝ) (shift : Nat) (diagFn : Nat → M ℝ) (d : Nat → ℝ)
    (hs : shift ≤ min a.nr a.nc)
    (hd : ∀ i, i < min a.nr a.nc - shift → diagFn i = .ok (d i))
    (hok : ∀ i, i < min a.nr a.nc - shift → StoredOk a.nr a shift d i) :
    ∃ q, assembleQ a shift diagFn = .ok q ∧ HasShape q a.nr (min a.nr a.nc) ∧
      toMat a.nr (min a.nr a.nc) q =
        prodP (storedP a.nr a shift d) (min a.nr a.nc - shift) * eyeMat a.nr (min a.nr a.nc) := by
  set m := a.nr with hm
  set D := min m a.nc with hD
  have hDm : D ≤ m := min_le_left _ _
  have hDn : D ≤ a.nc := min_le_right _ _
  unfold assembleQ
  simp only
  rw [if_neg (by omega)]
  have := wp_forRev (lo := 0) (hi := D - shift) (s := Arr2.eye m D)
    (f := fun i (res : Arr2 ℝ) => do
      let axis ← a.colSlice (i + shift) a.nr i
      let rows ← res.slice (i + shift) res.nr i res.nc
      let rows ← reflectCols axis 0 rows
      let d ← diagFn i
      let rows := rows.map fun x => x * NdFloat.signum d
      Except.ok (res.put (i + shift) i rows))
    (E := fun _ => False)
    (fun i (q : Arr2 ℝ) => HasShape q m D ∧
      prodP (storedP m a shift d) i * toMat m D q =
        prodP (storedP m a shift d) (D - shift) * eyeMat m D ∧
      ∀ r j, r < m → j < i → q.get r j = if r = j then 1 else 0)
    (Nat.zero_le _)
    ⟨⟨rfl, rfl⟩, by
      congr 1, by
      intro r j _ _; rfl⟩
    (by
      intro i q _ hi ⟨hq, hprod, hcols⟩
      rw [Arr2.colSlice_ok (by omega) le_rfl (by omega)]
      simp only [ok_bind]
      obtain ⟨rows, rows', e1, e2, e3, e4, e5⟩ := blockReflect_real
        (⟨a.nr - (i + shift), fun k => a.get (i + shift + k) i⟩ : Arr1 ℝ) q (i + shift) i
        (NdFloat.signum (d i)) (by rw [hq.1]; omega) (by rw [hq.2]; omega) (by simp [hq.1, hm])
      rw [e1]
      simp only [ok_bind]
      rw [e2, hd i hi]
      simp only [ok_bind, wp_ok]
      have hv : ∀ r, r < m → shiftVec (i + shift) (fun k => a.get (i + shift + k) i) r =
          if i + shift ≤ r then a.get r i else 0 := by
        intro r hr
        unfold shiftVec
        split
        · rename_i h; show a.get (i + shift + (r - (i + shift))) i = _; rw [show i + shift + (r - (i + shift)) = r by omega]
        · rfl
      refine ⟨⟨e3.trans hq.1, e4.trans hq.2⟩, ?_, ?_⟩
      · rw [← hprod, prodP, Matrix.mul_assoc]
        congr 1
        ext r c
        rw [toMat_apply, e5 r c (by rw [hq.1]; exact r.2), hq.1, hq.2]
        by_cases hc : i ≤ (c : Nat)
        · rw [if_pos ⟨hc, c.2⟩, storedP,
            house_mul_hApp (toMat m D q) (fun k => q.get k c) r c (fun _ => rfl)]
          exact hApp_congr r.2 hv
        · rw [if_neg (by omega), storedP]
          refine (house_mul_of_disjoint (hok i hi) (toMat m D q) c ?_ r).symm
          intro r' hr'
          rw [toMat_apply, hcols r' c r'.2 (by omega), if_neg (by omega)]
      · intro r j hr hj
        rw [e5 r j (by rw [hq.1]; exact hr), if_neg (by omega), hcols r j hr (by omega)])
  obtain ⟨q, hq, h1, h2, -⟩ := succeeds_iff.1 this
  refine ⟨q, hq, h1, ?_⟩
  rw [← h2, prodP, Matrix.one_mul]

theorem storedP_orth {m : Nat} {a : Arr2 ℝ} {shift : Nat} {d : Nat → ℝ} {k : Nat}
    (h : StoredOk m a shift d k) : (storedP m a shift d k)ᵀ * storedP m a shift d k = 1 :=
  house_orth h

theorem assembled_orth {m D N : Nat} {a : Arr2 ℝ} {shift : Nat} {d : Nat → ℝ} (hD : D ≤ m)
    (h : ∀ i, i < N → StoredOk m a shift d i) :
    (prodP (storedP m a shift d) N * eyeMat m D)ᵀ * (prodP (storedP m a shift d) N * eyeMat m D) =
      1 := by
  rw [Matrix.transpose_mul, Matrix.mul_assoc, ← Matrix.mul_assoc (prodP _ N)ᵀ,
    prodP_orth fun k hk => storedP_orth (h k hk), Matrix.one_mul, eyeMat_orth hD]

end LinfaLinalg
