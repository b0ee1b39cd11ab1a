import Verif.Proofs.DotRange

/-! # C145: inner products and matrix products within the range of the float format -/

namespace LinfaLinalg

open Flt

theorem map_range_sum (n : Nat) (f : Nat → ℝ) : ((List.range n).map f).sum = ∑ k ∈ Finset.range n, f k := by
  induction n with
  | zero => simp
  | succ n ih => rw [List.range_succ, List.map_append, List.sum_append, ih, Finset.sum_range_succ]; simp

/-- C145: in every IEEE 754 format with at least the precision and range of single precision, whatever the order in which
the kernel adds the products and whether it fuses them: if the factors are finite and the absolute values of the products
add up to at most `2^(emax - 3)`, the sum of the products is finite, and within `γ_(n+1)` times that sum and
`2 n (n + 1)` times half the smallest positive number. -/
theorem C145_sum {F : Format} (hF : F.Wide) (P : DotPlans) (n : Nat) (hn : n + 2 ≤ 2 ^ (F.mant - 6))
    (f g : Nat → Flt { Rounding.ieee F with plans := P }) (hf : ∀ k, k < n → IsFin (f k) ∧ Proper (f k))
    (hg : ∀ k, k < n → IsFin (g k) ∧ Proper (g k))
    (hS : ∑ k ∈ Finset.range n, |(f k).rv * (g k).rv| ≤ 2 ^ (F.emax - 3)) :
    IsFin (dotTo n f g) ∧ |(dotTo n f g).rv - ∑ k ∈ Finset.range n, (f k).rv * (g k).rv| ≤
      gam (2 ^ (-(F.mant : ℤ) - 1)) (n + 1) * (∑ k ∈ Finset.range n, |(f k).rv * (g k).rv|) +
        2 * n * (n + 1) * 2 ^ (F.emin - 1) := by
  have C := ieee_cholRange hF P hn
  have h0 := C.acc.u_nonneg
  have h1 := C.acc.u_lt_one
  have hη := C.acc.η_nonneg
  have hηn := C.ηn
  have hnu := C.nu
  have hinv := C.inv_le (k := n + 1) (by omega)
  set u : ℝ := 2 ^ (-(F.mant : ℤ) - 1) with hu
  set η : ℝ := 2 ^ (F.emin - 1) with hηd
  set S := ∑ k ∈ Finset.range n, |(f k).rv * (g k).rv| with hSd
  have hS0 : 0 ≤ S := Finset.sum_nonneg fun k _ => abs_nonneg _
  set l := (List.range n).map fun k => (f k, g k) with hl
  have hlen : l.length = n := by simp [hl]
  have hpr : ∀ k, k < n → pairRv l k = (f k).rv * (g k).rv := by
    intro k hk
    simp [pairRv, hl, List.getD, hk]
  set d := P.plan n with hd
  have hperm : d.terms.Perm (List.range n) := P.perm n
  have hcost : d.cost ≤ n + 1 := P.cost_le n
  have e1 : (d.terms.map fun k => |pairRv l k|).sum = S := by
    rw [(hperm.map _).sum_eq, map_range_sum]
    exact Finset.sum_congr rfl fun k hk => by rw [hpr k (Finset.mem_range.1 hk)]
  have e2 : (d.terms.map (pairRv l)).sum = ∑ k ∈ Finset.range n, (f k).rv * (g k).rv := by
    rw [(hperm.map _).sum_eq, map_range_sum]
    exact Finset.sum_congr rfl fun k hk => hpr k (Finset.mem_range.1 hk)
  have e3 : d.terms.length = n := by rw [hperm.length_eq, List.length_range]
  have hK : ((1 - u)⁻¹) ^ d.cost ≤ ((1 - u) ^ (n + 1))⁻¹ := by
    rw [inv_pow]; exact inv_pow_mono h0 h1 hcost
  have hc : (d.cost : ℝ) ≤ n + 1 := by exact_mod_cast hcost
  have hn0 : (0 : ℝ) ≤ n := Nat.cast_nonneg _
  have hK0 : 0 ≤ ((1 - u)⁻¹) ^ d.cost := by
    have : 0 < 1 - u := by linarith
    positivity
  have hcη : n * d.cost * η ≤ n * (n + 1) * η := by gcongr
  have hbig : (n : ℝ) * (n + 1) * η ≤ 2 ^ (F.emax - 3) / 4 := by
    obtain ⟨w1, w2, w3⟩ := hF
    have a1 : ((n : ℝ) + 1) ≤ 2 ^ (F.emax - 3) := by
      have b1 : ((n + 2 : Nat) : ℝ) ≤ ((2 ^ (F.mant - 6) : Nat) : ℝ) := by exact_mod_cast hn
      have b2 : (((2 ^ (F.mant - 6) : Nat) : ℝ)) ≤ 2 ^ (F.emax - 3) := by
        push_cast
        rw [← zpow_natCast]
        refine zpow_le_zpow_right₀ (by norm_num) ?_
        have := F.one
        omega
      push_cast at b1 b2
      linarith
    nlinarith
  have e4 : (2 : ℝ) ^ (F.emax - 1) = 4 * 2 ^ (F.emax - 3) := by
    rw [show F.emax - 1 = 2 + (F.emax - 3) by ring, zpow_add₀ (by norm_num)]; norm_num
  have hpos : (0 : ℝ) < 2 ^ (F.emax - 3) := by positivity
  have hd' : dotTo n f g = d.eval (fin false 0) Flt.add Flt.mul Flt.fma l := by
    show (P.plan l.length).eval _ _ _ _ l = _
    rw [hlen]
  obtain ⟨r1, r2⟩ := plan_range C.acc C.below l (fun p hp => by
    obtain ⟨k, hk, rfl⟩ := List.mem_map.1 hp
    exact ⟨hf k (List.mem_range.1 hk), hg k (List.mem_range.1 hk)⟩) d (1 - u)⁻¹ rfl (by
      rw [e1, e3, e4]
      refine lt_of_le_of_lt (mul_le_mul (hK.trans hinv) (add_le_add hS hcη) (by positivity) (by norm_num)) ?_
      linarith)
  rw [hd']
  refine ⟨r1, ?_⟩
  rw [e1, e2, e3] at r2
  refine r2.trans (add_le_add (mul_le_mul_of_nonneg_right ?_ hS0) ?_)
  · have hnu1 : ((n + 1 : Nat) : ℝ) * u < 1 := lt_of_le_of_lt (mul_le_mul_of_nonneg_right (by push_cast; linarith) h0) hnu
    have := inv_pow_le_gam h0 hnu1
    linarith
  · calc ((1 - u)⁻¹) ^ d.cost * (n * d.cost * η) ≤ 2 * (n * (n + 1) * η) :=
        mul_le_mul (hK.trans hinv) hcη (by positivity) (by norm_num)
      _ = _ := by ring

/-- C145, `dot` of vectors. -/
theorem C145_dot {F : Format} (hF : F.Wide) (P : DotPlans) (a b : Arr1 (Flt { Rounding.ieee F with plans := P }))
    (hab : a.len = b.len) (hn : a.len + 2 ≤ 2 ^ (F.mant - 6)) (ha : ∀ k, k < a.len → IsFin (a.get k) ∧ Proper (a.get k))
    (hb : ∀ k, k < b.len → IsFin (b.get k) ∧ Proper (b.get k))
    (hS : ∑ k ∈ Finset.range a.len, |(a.get k).rv * (b.get k).rv| ≤ 2 ^ (F.emax - 3)) :
    ∃ z, a.dot b = .ok z ∧ IsFin z ∧ |z.rv - ∑ k ∈ Finset.range a.len, (a.get k).rv * (b.get k).rv| ≤
      gam (2 ^ (-(F.mant : ℤ) - 1)) (a.len + 1) * (∑ k ∈ Finset.range a.len, |(a.get k).rv * (b.get k).rv|) +
        2 * a.len * (a.len + 1) * 2 ^ (F.emin - 1) := by
  refine ⟨_, by rw [Arr1.dot, if_pos hab], ?_⟩
  exact C145_sum hF P a.len hn a.get b.get ha (fun k hk => hb k (hab ▸ hk)) hS

/-- C145, `dot` of matrices: every entry of the product. -/
theorem C145_matmul {F : Format} (hF : F.Wide) (P : DotPlans) (a b : Arr2 (Flt { Rounding.ieee F with plans := P }))
    (hab : a.nc = b.nr) (hn : a.nc + 2 ≤ 2 ^ (F.mant - 6))
    (ha : ∀ i k, i < a.nr → k < a.nc → IsFin (a.get i k) ∧ Proper (a.get i k))
    (hb : ∀ k j, k < b.nr → j < b.nc → IsFin (b.get k j) ∧ Proper (b.get k j))
    (hS : ∀ i j, i < a.nr → j < b.nc → ∑ k ∈ Finset.range a.nc, |(a.get i k).rv * (b.get k j).rv| ≤ 2 ^ (F.emax - 3)) :
    ∃ z, a.dot b = .ok z ∧ z.nr = a.nr ∧ z.nc = b.nc ∧ ∀ i j, i < a.nr → j < b.nc → IsFin (z.get i j) ∧
      |(z.get i j).rv - ∑ k ∈ Finset.range a.nc, (a.get i k).rv * (b.get k j).rv| ≤
        gam (2 ^ (-(F.mant : ℤ) - 1)) (a.nc + 1) * (∑ k ∈ Finset.range a.nc, |(a.get i k).rv * (b.get k j).rv|) +
          2 * a.nc * (a.nc + 1) * 2 ^ (F.emin - 1) := by
  refine ⟨⟨a.nr, b.nc, fun i j => dotTo a.nc (a.get i) fun k => b.get k j⟩, by rw [Arr2.dot, if_pos hab], rfl, rfl,
    fun i j hi hj => ?_⟩
  exact C145_sum hF P a.nc hn (a.get i) (fun k => b.get k j) (fun k hk => ha i k hi hk)
    (fun k hk => hb k j (hab ▸ hk) hj) (hS i j hi hj)

/-- The vector `3, -4, 2^40` of C145. -/
noncomputable def exDot {R : Rounding} : Arr1 (Flt R) :=
  ⟨3, fun k => if k = 0 then .fin false 3 else if k = 1 then .fin true 4 else .fin false (2 ^ 40)⟩

theorem exDot_ok {R : Rounding} (k : Nat) : IsFin ((exDot : Arr1 (Flt R)).get k) ∧ Proper ((exDot : Arr1 (Flt R)).get k) := by
  unfold exDot
  dsimp only
  split_ifs <;> refine ⟨⟨_, _, rfl⟩, ?_⟩ <;> simp [Proper]

theorem exDot_dot (P : DotPlans) : ∃ z, (exDot : Arr1 (Flt { Rounding.ieee .single with plans := P })).dot exDot = .ok z ∧ IsFin z := by
  obtain ⟨z, h1, h2, -⟩ := C145_dot Format.single_wide P exDot exDot rfl (by norm_num [exDot, Format.single])
    (fun k _ => exDot_ok k) (fun k _ => exDot_ok k)
    (by simp [exDot, Finset.sum_range_succ, rv, val, sgn, Format.single]; norm_num)
  exact ⟨z, h1, h2⟩

end LinfaLinalg
