import Verif.Props.IeeeNorm
import Verif.Props.CholRange
import Verif.Props.SolveRange

/-! # C144: the norms within the range of the float format

C98 bounds the errors of norms that turned out finite. Here it is stated when they do: sums up to an eighth of the
range are finite, and where the squares are neither too large nor too small the L2 norm is accurate to a few units in
the last place per entry. -/

namespace LinfaLinalg

open Flt

variable {R : Rounding} {u η Ω : ℝ}

/-- Adding up finite numbers that are not negative gives a finite number, if the sum is in range. -/
theorem flt_foldl_isFin (hR : R.Accurate u η) (hΩ : R.Below Ω) (l : List (Flt R)) (s : Flt R) (hs : NotNeg s) (hl : ∀ x ∈ l, NotNeg x)
    (fs : IsFin s) (fl : ∀ x ∈ l, IsFin x)
    (h : (s.rv + (l.map Flt.rv).sum + l.length * η) * ((1 - u) ^ l.length)⁻¹ < Ω) : IsFin (l.foldl (· + ·) s) := by
  have h0 := hR.u_nonneg
  have h1 := hR.u_lt_one
  have hη := hR.η_nonneg
  induction l generalizing s with
  | nil => exact fs
  | cons x l ih =>
    rw [List.foldl_cons]
    have hx := hl x (by simp)
    have hS : 0 ≤ (l.map Flt.rv).sum := List.sum_nonneg (by
      intro y hy
      obtain ⟨z, hz, rfl⟩ := List.mem_map.1 hy
      exact (hl z (by simp [hz])).rv)
    have s0 := hs.rv
    have x0 := hx.rv
    rw [List.map_cons, List.sum_cons, List.length_cons] at h
    push_cast at h
    have hlen : (0 : ℝ) ≤ l.length := Nat.cast_nonneg _
    have hu1 : 0 < 1 - u := by linarith
    have hK : 0 < ((1 - u) ^ l.length)⁻¹ := by positivity
    have hK1 : 1 ≤ ((1 - u) ^ (l.length + 1))⁻¹ := by
      have := inv_pow_mono h0 h1 (Nat.zero_le (l.length + 1))
      simpa using this
    have hsx : |s.rv + x.rv| < Ω := by
      rw [abs_of_nonneg (by linarith)]
      refine lt_of_le_of_lt ?_ h
      have : 0 ≤ l.length * η := by positivity
      nlinarith
    have fsx := add_isFin hΩ fs (fl x (by simp)) hsx
    refine ih (s + x) (notNeg_add hs hx) (fun y hy => hl y (by simp [hy])) fsx (fun y hy => fl y (by simp [hy])) (lt_of_le_of_lt ?_ h)
    obtain ⟨-, -, t, e1, ht, he1, et⟩ := add_err hR fsx
    have t1 : t ≤ (1 - u)⁻¹ := by simpa using ht.le_inv h0 h1
    have i1 : 1 ≤ (1 - u)⁻¹ := by rw [one_le_inv₀ hu1]; linarith
    have hKe : ((1 - u) ^ (l.length + 1))⁻¹ = (1 - u)⁻¹ * ((1 - u) ^ l.length)⁻¹ := by rw [pow_succ, mul_inv, mul_comm]
    rw [hKe, ← mul_assoc]
    refine mul_le_mul_of_nonneg_right ?_ hK.le
    rw [et]
    have a1 := mul_le_mul_of_nonneg_left t1 (by linarith : 0 ≤ s.rv + x.rv)
    have a2 := (le_abs_self e1).trans he1
    have a3 := mul_le_mul_of_nonneg_left i1 hS
    have a4 := mul_le_mul_of_nonneg_left i1 (by positivity : 0 ≤ (l.length + 1) * η)
    nlinarith

theorem foldl_proper (l : List (Flt R)) : ∀ s : Flt R, Proper s → Proper (l.foldl (· + ·) s) := by
  induction l with
  | nil => exact fun s hs => hs
  | cons x l ih => exact fun s _ => ih _ (proper_add _ _)

theorem foldl_notNeg (l : List (Flt R)) : ∀ s : Flt R, NotNeg s → (∀ x ∈ l, NotNeg x) → NotNeg (l.foldl (· + ·) s) := by
  induction l with
  | nil => exact fun s hs _ => hs
  | cons x l ih => exact fun s hs hl => ih _ (notNeg_add hs (hl x (by simp))) fun y hy => hl y (by simp [hy])

theorem notNeg_zero : NotNeg (0 : Flt R) := Or.inr (Or.inr ⟨_, _, rfl, by simp [val]⟩)

/-- The bound for the number of entries. -/
theorem length_bounds {F : Format} (hF : F.Wide) (P : DotPlans) {n : Nat} (hn : n + 2 ≤ 2 ^ (F.mant - 6)) :
    (n : ℝ) * 2 ^ (F.emin - 1) ≤ 1 / 4 ∧ ((1 - (2 : ℝ) ^ (-(F.mant : ℤ) - 1)) ^ n)⁻¹ ≤ 2 := by
  have C := ieee_cholRange hF P hn
  exact ⟨by linarith [C.ηn], C.inv_le (by omega)⟩

/-- C144, `norm_l1`: in every IEEE 754 format with at least the precision and range of single precision, if the entries
are finite and the sum of their absolute values is at most `2^(emax - 3)`, the L1 norm is finite, with a relative error of
at most `γ_n` and an absolute error of `2 n` times the smallest positive number. -/
theorem C144_norm_l1 {F : Format} (hF : F.Wide) (P : DotPlans) (l : List (Flt { Rounding.ieee F with plans := P }))
    (hn : l.length + 2 ≤ 2 ^ (F.mant - 6)) (hf : ∀ x ∈ l, IsFin x ∧ Proper x) (hS : (l.map fun x => |x.rv|).sum ≤ 2 ^ (F.emax - 3)) :
    IsFin (normL1 l) ∧ |(normL1 l).rv - (l.map fun x => |x.rv|).sum| ≤
      gam (2 ^ (-(F.mant : ℤ) - 1)) l.length * (l.map fun x => |x.rv|).sum + 2 * l.length * 2 ^ (F.emin - 1) := by
  have C := ieee_cholRange hF P hn
  obtain ⟨b1, b2⟩ := length_bounds hF P hn
  have hΩ0 : (1 : ℝ) ≤ 2 ^ (F.emax - 3) := one_le_zpow₀ (by norm_num) (by obtain ⟨w1, w2, w3⟩ := hF; have := F.one; omega)
  have e4 : (2 : ℝ) ^ (F.emax - 1) = 4 * 2 ^ (F.emax - 3) := by
    rw [show F.emax - 1 = 2 + (F.emax - 3) by ring, zpow_add₀ (by norm_num)]; norm_num
  have e1 : ((l.map NdFloat.abs).map Flt.rv) = l.map fun x => |x.rv| := by
    rw [List.map_map]
    exact List.map_congr_left fun x hx => abs_rv (hf x hx).2
  have hS0 : 0 ≤ (l.map fun x => |x.rv|).sum := List.sum_nonneg (by
    intro y hy; obtain ⟨z, -, rfl⟩ := List.mem_map.1 hy; exact abs_nonneg _)
  have hfin : IsFin (normL1 l) := by
    unfold normL1
    refine flt_foldl_isFin C.acc C.below _ 0 notNeg_zero ?_ zero_fin ?_ ?_
    · intro x hx; obtain ⟨y, hy, rfl⟩ := List.mem_map.1 hx; exact notNeg_abs (hf y hy).2
    · intro x hx; obtain ⟨y, hy, rfl⟩ := List.mem_map.1 hx; exact abs_fin.2 (hf y hy).1
    · rw [List.length_map, e1, zero_rv, zero_add]
      have hη := C.acc.η_nonneg
      refine lt_of_le_of_lt (mul_le_mul_of_nonneg_left b2 (by positivity)) ?_
      rw [e4]
      linarith
  refine ⟨hfin, ?_⟩
  have hu0 : (0 : ℝ) < 2 ^ (-(F.mant : ℤ) - 1) := by positivity
  have hnu : (l.length : ℝ) * 2 ^ (-(F.mant : ℤ) - 1) < 1 :=
    lt_of_le_of_lt (mul_le_mul_of_nonneg_right (by push_cast; linarith) hu0.le) C.nu
  have h := (C98_norm_l1 C.acc l (fun x hx => (hf x hx).2) hnu hfin).2
  refine h.trans ?_
  have hg : gam (2 ^ (-(F.mant : ℤ) - 1)) l.length ≤ 1 :=
    (gam_mono hu0.le (by omega) C.nu).trans (C.g1.trans (by norm_num))
  have : (1 + gam (2 ^ (-(F.mant : ℤ) - 1)) l.length) * l.length * 2 ^ (F.emin - 1) ≤ 2 * l.length * 2 ^ (F.emin - 1) := by
    gcongr
    linarith
  linarith

/-- C144, `norm_l2`: if the entries are finite and the sum of their squares is at most `2^(emax - 4)`, the L2 norm is
finite. If the sum is also at least `2^(emin + 2 mant + 2)`, its relative error is at most `2 γ_(n+2)`. -/
theorem C144_norm_l2 {F : Format} (hF : F.Wide) (P : DotPlans) (l : List (Flt { Rounding.ieee F with plans := P }))
    (hn : l.length + 2 ≤ 2 ^ (F.mant - 6)) (hf : ∀ x ∈ l, IsFin x ∧ Proper x)
    (hS : (l.map fun x => x.rv ^ 2).sum ≤ 2 ^ (F.emax - 4)) :
    IsFin (normL2 l) ∧ (2 ^ (F.emin + 2 * F.mant + 2) ≤ (l.map fun x => x.rv ^ 2).sum →
      |(normL2 l).rv - √(l.map fun x => x.rv ^ 2).sum| ≤
        2 * gam (2 ^ (-(F.mant : ℤ) - 1)) (l.length + 2) * √(l.map fun x => x.rv ^ 2).sum) := by
  have C := ieee_cholRange hF P hn
  obtain ⟨b1, b2⟩ := length_bounds hF P hn
  have hη := C.acc.η_nonneg
  have hu0 : (0 : ℝ) < 2 ^ (-(F.mant : ℤ) - 1) := by positivity
  have hΩ0 : (1 : ℝ) ≤ 2 ^ (F.emax - 4) := one_le_zpow₀ (by norm_num) (by obtain ⟨w1, w2, w3⟩ := hF; have := F.one; omega)
  have e4 : (2 : ℝ) ^ (F.emax - 1) = 8 * 2 ^ (F.emax - 4) := by
    rw [show F.emax - 1 = 3 + (F.emax - 4) by ring, zpow_add₀ (by norm_num)]; norm_num
  have hsq0 : ∀ y ∈ l.map fun x => x.rv ^ 2, (0 : ℝ) ≤ y := by
    intro y hy; obtain ⟨z, -, rfl⟩ := List.mem_map.1 hy; exact sq_nonneg _
  set S := (l.map fun x => x.rv ^ 2).sum with hSd
  have hS0 : 0 ≤ S := List.sum_nonneg hsq0
  have hxx : ∀ x ∈ l, IsFin (x * x) := by
    intro x hx
    refine mul_isFin C.below (hf x hx).2 (hf x hx).2 (hf x hx).1 (hf x hx).1 ?_
    have h1 : x.rv ^ 2 ≤ S := List.single_le_sum hsq0 _ (List.mem_map.2 ⟨x, hx, rfl⟩)
    rw [abs_of_nonneg (mul_self_nonneg _), e4]
    nlinarith
  obtain ⟨-, w, E, hw, hE, e⟩ := flt_squares C.acc l (fun x hx => (hf x hx).2) hxx
  have hw2 : w ≤ 2 := (hw.le_inv C.acc.u_nonneg C.acc.u_lt_one).trans (C.inv_le (by omega))
  have hsum : (l.map fun x => (x * x).rv).sum ≤ 2 * S + l.length * 2 ^ (F.emin - 1) := by
    rw [e, ← hSd]
    have := mul_le_mul_of_nonneg_left hw2 hS0
    have := (le_abs_self E).trans hE
    linarith
  have hnn : ∀ x ∈ l.map fun x => x * x, NotNeg x := by
    intro x hx; obtain ⟨y, hy, rfl⟩ := List.mem_map.1 hx; exact notNeg_sq _
  have e2 : ((l.map fun x => x * x).map Flt.rv).sum = (l.map fun x => (x * x).rv).sum := by rw [List.map_map]; rfl
  have hff : IsFin ((l.map fun x => x * x).foldl (· + ·) 0) := by
    refine flt_foldl_isFin C.acc C.below _ 0 notNeg_zero hnn zero_fin ?_ ?_
    · intro x hx; obtain ⟨y, hy, rfl⟩ := List.mem_map.1 hx; exact hxx y hy
    · rw [List.length_map, e2, zero_rv, zero_add]
      have h3 : (0 : ℝ) ≤ (l.map fun x => (x * x).rv).sum := List.sum_nonneg (by
        intro y hy; obtain ⟨z, hz, rfl⟩ := List.mem_map.1 hy; exact (notNeg_sq z).rv)
      refine lt_of_le_of_lt (mul_le_mul_of_nonneg_left b2 (by positivity)) ?_
      rw [e4]
      linarith
  have hpf := foldl_proper (l.map fun x => x * x) (0 : Flt { Rounding.ieee F with plans := P }) (proper_fin_zero _)
  have hnf := foldl_notNeg _ _ notNeg_zero hnn
  have hfin : IsFin (normL2 l) := by
    unfold normL2
    obtain ⟨-, -, w', E', hw', hE', e'⟩ := flt_foldl_add C.acc _ 0 notNeg_zero hnn hff
    rw [List.length_map] at hw' hE'
    rw [zero_rv, zero_add, e2] at e'
    have hw2' : w' ≤ 2 := (hw'.le_inv C.acc.u_nonneg C.acc.u_lt_one).trans b2
    have hw0' := hw'.pos C.acc.u_nonneg C.acc.u_lt_one
    have h3 : (0 : ℝ) ≤ (l.map fun x => (x * x).rv).sum := List.sum_nonneg (by
      intro y hy; obtain ⟨z, hz, rfl⟩ := List.mem_map.1 hy; exact (notNeg_sq z).rv)
    have hle : ((l.map fun x => x * x).foldl (· + ·) (0 : Flt { Rounding.ieee F with plans := P })).rv < 2 ^ (F.emax - 1) := by
      rw [e', e4]
      have a1 := mul_le_mul_of_nonneg_left hw2' h3
      have a2 : E' ≤ l.length * 2 ^ (F.emin - 1) * 2 :=
        (le_abs_self E').trans (hE'.trans (mul_le_mul_of_nonneg_left b2 (by positivity)))
      linarith
    generalize (l.map fun x => x * x).foldl (· + ·) (0 : Flt { Rounding.ieee F with plans := P }) = z at hff hpf hle hnf
    by_cases hz : 0 < z.rv
    · refine sqrt_isFin C.below hpf hff hz ?_
      rw [Real.sqrt_lt' (by positivity)]
      rw [e4] at hle ⊢
      nlinarith
    · have hz0 : z.rv = 0 := le_antisymm (not_lt.1 hz) hnf.rv
      obtain ⟨s, m, rfl⟩ := hff
      have hm : m = 0 := by
        have : val s m = 0 := hz0
        cases s <;> simpa [val, sgn] using this
      exact ⟨s, m, by show Flt.sqrt (fin s m) = _; rw [Flt.sqrt, if_pos hm]⟩
  refine ⟨hfin, fun hlow => ?_⟩
  have h := (C98_norm_l2 C.acc l (fun x hx => (hf x hx).2) C.nu hfin).2
  refine h.trans ?_
  set u : ℝ := 2 ^ (-(F.mant : ℤ) - 1) with hu
  set g := gam u (l.length + 2) with hg
  have hgu : ((l.length + 2 : Nat) : ℝ) * u ≤ g := le_gam hu0.le C.nu
  have hg1 := C.g1
  have hn0 : (0 : ℝ) ≤ l.length := Nat.cast_nonneg _
  obtain ⟨r, hr⟩ : ∃ r : ℝ, r = √(2 ^ F.emin) := ⟨_, rfl⟩
  have hr0 : 0 ≤ r := by rw [hr]; exact Real.sqrt_nonneg _
  have hr2 : r ^ 2 = 2 ^ F.emin := by rw [hr]; exact Real.sq_sqrt (by positivity)
  have hr1 : r ≤ 1 := by
    have : (2 : ℝ) ^ F.emin ≤ 1 := zpow_le_one_of_nonpos₀ (by norm_num) (by have := F.half; omega)
    nlinarith
  have hη2 : (2 : ℝ) ^ (F.emin - 1) = r ^ 2 / 2 := by rw [hr2, zpow_sub₀ (by norm_num)]; norm_num
  have hq : r ≤ u * √S := by
    have h1 : r ≤ √(u ^ 2 * S) := by
      rw [hr]
      refine Real.sqrt_le_sqrt ?_
      have h2 : (2 : ℝ) ^ F.emin = u ^ 2 * 2 ^ (F.emin + 2 * F.mant + 2) := by
        rw [hu, sq, ← zpow_add₀ (by norm_num), ← zpow_add₀ (by norm_num)]; congr 1; ring
      rw [h2]
      exact mul_le_mul_of_nonneg_left hlow (sq_nonneg u)
    rwa [Real.sqrt_mul (sq_nonneg u), Real.sqrt_sq hu0.le] at h1
  have hroot : √(2 * l.length * 2 ^ (F.emin - 1)) ≤ (l.length + 1) / 2 * r := by
    refine Real.sqrt_le_iff.2 ⟨by positivity, ?_⟩
    rw [hη2, mul_pow]
    have : (l.length : ℝ) ≤ ((l.length + 1) / 2) ^ 2 := by nlinarith [sq_nonneg ((l.length : ℝ) - 1)]
    nlinarith [sq_nonneg r]
  have hlast : (l.length + 2) * r ≤ g * √S := by
    have a1 := mul_le_mul_of_nonneg_left hq (by positivity : 0 ≤ (l.length : ℝ) + 2)
    have a2 := mul_le_mul_of_nonneg_right hgu (Real.sqrt_nonneg S)
    push_cast at a2
    linarith
  have hmid : (1 + g) * √(2 * l.length * 2 ^ (F.emin - 1)) ≤ 101 / 100 * ((l.length + 1) / 2 * r) :=
    mul_le_mul (by linarith) hroot (Real.sqrt_nonneg _) (by norm_num)
  have hηr : (2 : ℝ) ^ (F.emin - 1) ≤ r / 2 := by rw [hη2]; nlinarith
  have := mul_nonneg hn0 hr0
  linarith

/-- C144, `norm_l2` in double precision: entries with squares adding up to between `2^(-968)` and `2^1020`. -/
theorem C144_norm_l2_double (P : DotPlans) (l : List (Flt { Rounding.ieee .double with plans := P }))
    (hn : l.length + 2 ≤ 2 ^ 46) (hf : ∀ x ∈ l, IsFin x ∧ Proper x) (hlo : 2 ^ (-968 : ℤ) ≤ (l.map fun x => x.rv ^ 2).sum)
    (hhi : (l.map fun x => x.rv ^ 2).sum ≤ 2 ^ (1020 : ℤ)) :
    IsFin (normL2 l) ∧ |(normL2 l).rv - √(l.map fun x => x.rv ^ 2).sum| ≤
      2 * gam (2 ^ (-53 : ℤ)) (l.length + 2) * √(l.map fun x => x.rv ^ 2).sum := by
  obtain ⟨h1, h2⟩ := C144_norm_l2 Format.double_wide P l hn hf hhi
  exact ⟨h1, h2 hlo⟩

/-- C144, `norm_l2` in single precision: entries with squares adding up to between `2^(-101)` and `2^124`. -/
theorem C144_norm_l2_single (P : DotPlans) (l : List (Flt { Rounding.ieee .single with plans := P }))
    (hn : l.length + 2 ≤ 2 ^ 17) (hf : ∀ x ∈ l, IsFin x ∧ Proper x) (hlo : 2 ^ (-101 : ℤ) ≤ (l.map fun x => x.rv ^ 2).sum)
    (hhi : (l.map fun x => x.rv ^ 2).sum ≤ 2 ^ (124 : ℤ)) :
    IsFin (normL2 l) ∧ |(normL2 l).rv - √(l.map fun x => x.rv ^ 2).sum| ≤
      2 * gam (2 ^ (-24 : ℤ)) (l.length + 2) * √(l.map fun x => x.rv ^ 2).sum := by
  obtain ⟨h1, h2⟩ := C144_norm_l2 Format.single_wide P l hn hf hhi
  exact ⟨h1, h2 hlo⟩

/-- The entries `3, -7, 2^50` of C144. -/
noncomputable def exNorms {R : Rounding} : List (Flt R) := [.fin false 3, .fin true 7, .fin false (2 ^ 50)]

theorem exNorms_ok (P : DotPlans) : IsFin (normL2 (exNorms : List (Flt { Rounding.ieee .single with plans := P }))) ∧
    IsFin (normL1 (exNorms : List (Flt { Rounding.ieee .single with plans := P }))) := by
  have hf : ∀ x ∈ (exNorms : List (Flt { Rounding.ieee .single with plans := P })), IsFin x ∧ Proper x := by
    intro x hx
    simp only [exNorms, List.mem_cons, List.not_mem_nil, or_false] at hx
    rcases hx with rfl | rfl | rfl <;> refine ⟨⟨_, _, rfl⟩, ?_⟩ <;> simp [Proper]
  refine ⟨(C144_norm_l2_single P exNorms (by simp [exNorms]) hf ?_ ?_).1,
    (C144_norm_l1 Format.single_wide P exNorms (by simp [exNorms, Format.single]) hf ?_).1⟩ <;>
  simp [exNorms, rv, val, sgn, Format.single] <;> norm_num

end LinfaLinalg
