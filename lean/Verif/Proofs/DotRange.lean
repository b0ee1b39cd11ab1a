import Verif.Props.NormRange

/-! # Inner products within the range of the float format -/

namespace LinfaLinalg

open Flt

variable {R : Rounding} {u η Ω : ℝ}

theorem Flt.Err.bound (h0 : 0 ≤ u) (h1 : u < 1) {x z : ℝ} (h : Err u η x z) : |z - x| ≤ ((1 - u)⁻¹ - 1) * |x| + η := by
  obtain ⟨t, e, ht, he, rfl⟩ := h
  have hu : 0 < 1 - u := by linarith
  have t1 : t ≤ (1 - u)⁻¹ := by simpa using ht.le_inv h0 h1
  have t2 : 1 - u ≤ t := by simpa using ht.1
  have hK : u ≤ (1 - u)⁻¹ - 1 := by
    have : (1 - u)⁻¹ * (1 - u) = 1 := inv_mul_cancel₀ hu.ne'
    have : 1 ≤ (1 - u)⁻¹ := by rw [one_le_inv₀ hu]; linarith
    nlinarith
  have ht1 : |t - 1| ≤ (1 - u)⁻¹ - 1 := abs_le.2 ⟨by linarith, by linarith⟩
  calc |x * t + e - x| = |x * (t - 1) + e| := by ring_nf
    _ ≤ |x * (t - 1)| + |e| := abs_add_le _ _
    _ = |t - 1| * |x| + |e| := by rw [abs_mul, mul_comm]
    _ ≤ _ := add_le_add (mul_le_mul_of_nonneg_right ht1 (abs_nonneg x)) he

theorem Flt.fma_range (hR : R.Accurate u η) (hΩ : R.Below Ω) {x y z : Flt R} (hx : IsFin x) (hy : IsFin y) (hz : IsFin z)
    (h : |x.rv * y.rv + z.rv| < Ω) : IsFin (fma x y z) ∧ Err u η (x.rv * y.rv + z.rv) (fma x y z).rv := by
  obtain ⟨s, m, rfl⟩ := hx
  obtain ⟨t, n, rfl⟩ := hy
  obtain ⟨r, k, rfl⟩ := hz
  change |val s m * val t n + val r k| < Ω at h
  have hf : IsFin (ofReal ((s != t) && r) (val s m * val t n + val r k) : Flt R) := by
    unfold ofReal
    split_ifs
    · exact ⟨_, _, rfl⟩
    · exact round_isFin hΩ (abs_nonneg _) h
  exact ⟨hf, ofReal_err hR hf⟩

theorem Flt.add_zero_rv {x y : Flt R} (hx : IsFin x) (hy : IsFin y) (h : x.rv + y.rv = 0) : IsFin (x + y) ∧ (x + y).rv = 0 := by
  obtain ⟨s, m, rfl⟩ := hx
  obtain ⟨t, n, rfl⟩ := hy
  change val s m + val t n = 0 at h
  have e : (fin s m + fin t n : Flt R) = ofReal (s && t) (val s m + val t n) := rfl
  rw [e, ofReal, if_pos h]
  exact ⟨⟨_, _, rfl⟩, by simp [rv, val]⟩

/-- One more rounding. -/
theorem plan_step {K Q A m c P x z : ℝ} (hK : 1 ≤ K) (hQ : 1 ≤ Q) (hm : 1 ≤ m) (hη : 0 ≤ η) (hP : |P| ≤ A)
    (hx : |x - P| ≤ (Q - 1) * A + Q * (m * c * η)) :
    |x| ≤ Q * (A + m * c * η) ∧ (|z - x| ≤ (K - 1) * |x| + η → |z - P| ≤ (Q * K - 1) * A + Q * K * (m * (c + 1) * η)) := by
  have h1 : |x| ≤ Q * (A + m * c * η) := by
    have := abs_sub_abs_le_abs_sub x P
    linarith
  refine ⟨h1, fun hz => ?_⟩
  have h2 := abs_sub_le z x P
  have h3 := mul_le_mul_of_nonneg_left h1 (by linarith : 0 ≤ K - 1)
  have h4 : η ≤ Q * K * (m * η) := by
    have : 1 ≤ Q * K * m := one_le_mul_of_one_le_of_one_le (one_le_mul_of_one_le_of_one_le hQ hK) hm
    nlinarith
  nlinarith

/-- The exact `k`-th product of a list of pairs of floats. -/
noncomputable def pairRv (l : List (Flt R × Flt R)) (k : Nat) : ℝ :=
  (l.getD k (fin false 0, fin false 0)).1.rv * (l.getD k (fin false 0, fin false 0)).2.rv

/-- Carrying out a plan on finite numbers gives a finite number, and its error, if the sum of the absolute values is in
range. -/
theorem plan_range (hR : R.Accurate u η) (hΩ : R.Below Ω) (l : List (Flt R × Flt R))
    (hl : ∀ p ∈ l, (IsFin p.1 ∧ Proper p.1) ∧ IsFin p.2 ∧ Proper p.2) (d : DotPlan) (K : ℝ) (hKd : K = (1 - u)⁻¹)
    (h : K ^ d.cost * ((d.terms.map fun k => |pairRv l k|).sum + d.terms.length * d.cost * η) < Ω) :
    IsFin (d.eval (fin false 0) Flt.add Flt.mul Flt.fma l) ∧
    |(d.eval (fin false 0) Flt.add Flt.mul Flt.fma l).rv - (d.terms.map (pairRv l)).sum| ≤
      (K ^ d.cost - 1) * (d.terms.map fun k => |pairRv l k|).sum + K ^ d.cost * (d.terms.length * d.cost * η) := by
  have h0 := hR.u_nonneg
  have h1 := hR.u_lt_one
  have hη := hR.η_nonneg
  have hK : 1 ≤ K := by rw [hKd, one_le_inv₀ (by linarith)]; linarith
  have hk : ∀ k, (IsFin (l.getD k (fin false 0, fin false 0)).1 ∧ Proper (l.getD k (fin false 0, fin false 0)).1) ∧
      IsFin (l.getD k (fin false 0, fin false 0)).2 ∧ Proper (l.getD k (fin false 0, fin false 0)).2 := fun k => by
    by_cases h : k < l.length
    · have := hl _ (List.getElem_mem h)
      simpa [List.getD, h] using this
    · have e : l.getD k (fin false 0, fin false 0) = (fin false 0, fin false 0) := by
        simp [List.getD, Nat.le_of_not_lt h]
      rw [e]
      exact ⟨⟨⟨_, _, rfl⟩, proper_fin_zero _⟩, ⟨_, _, rfl⟩, proper_fin_zero _⟩
  have habs : ∀ L : List Nat, |(L.map (pairRv l)).sum| ≤ (L.map fun k => |pairRv l k|).sum := by
    intro L
    induction L with
    | nil => simp
    | cons a L ih =>
      rw [List.map_cons, List.sum_cons, List.map_cons, List.sum_cons]
      exact (abs_add_le _ _).trans (by linarith)
  have hnn : ∀ L : List Nat, 0 ≤ (L.map fun k => |pairRv l k|).sum := fun L => (abs_nonneg _).trans (habs L)
  have hpow : ∀ c : Nat, 1 ≤ K ^ c := fun c => one_le_pow₀ hK
  induction d with
  | zero =>
    refine ⟨⟨_, _, rfl⟩, ?_⟩
    simp [DotPlan.eval, DotPlan.terms, DotPlan.cost, rv, val]
  | prod k =>
    obtain ⟨⟨f1, p1⟩, f2, p2⟩ := hk k
    have hs := plan_step (η := η) (K := K) (Q := 1) (m := 1) (c := 0) (P := pairRv l k) (A := |pairRv l k|) (x := pairRv l k)
      (z := (DotPlan.eval (fin false 0) Flt.add Flt.mul Flt.fma l (.prod k)).rv) hK le_rfl le_rfl hη le_rfl (by simp)
    simp only [DotPlan.terms, DotPlan.cost, List.map_cons, List.map_nil, List.sum_cons, List.sum_nil, add_zero,
      List.length_cons, List.length_nil, pow_one, zero_add, Nat.cast_one, one_mul] at h hs ⊢
    have hlt : |pairRv l k| < Ω := by
      have := abs_nonneg (pairRv l k)
      refine lt_of_le_of_lt ?_ h
      nlinarith
    have hf := mul_isFin hΩ p1 p2 f1 f2 hlt
    exact ⟨hf, hs.2 ((mul_err hR p1 p2 hf).2.2.bound h0 h1 |>.trans_eq (by rw [hKd]; rfl))⟩
  | add s t ihs iht =>
    have e1 : ((DotPlan.add s t).terms.map fun k => |pairRv l k|).sum =
        (s.terms.map fun k => |pairRv l k|).sum + (t.terms.map fun k => |pairRv l k|).sum := by
      rw [DotPlan.terms, List.map_append, List.sum_append]
    have e2 : ((DotPlan.add s t).terms.map (pairRv l)).sum =
        (s.terms.map (pairRv l)).sum + (t.terms.map (pairRv l)).sum := by
      rw [DotPlan.terms, List.map_append, List.sum_append]
    have e3 : ((DotPlan.add s t).terms.length : ℝ) = s.terms.length + t.terms.length := by
      rw [DotPlan.terms, List.length_append]; push_cast; ring
    by_cases hb : s.terms = [] ∧ t.terms = []
    · have hΩ0 : 0 < Ω := lt_of_le_of_lt (mul_nonneg (by positivity)
        (add_nonneg (hnn _) (by positivity))) h
      obtain ⟨f1, b1⟩ := ihs (by rw [hb.1]; simpa using hΩ0)
      obtain ⟨f2, b2⟩ := iht (by rw [hb.2]; simpa using hΩ0)
      rw [hb.1] at b1
      rw [hb.2] at b2
      simp only [List.map_nil, List.sum_nil, sub_zero, mul_zero, List.length_nil, Nat.cast_zero, zero_mul, add_zero] at b1 b2
      have z1 := abs_nonpos_iff.1 b1
      have z2 := abs_nonpos_iff.1 b2
      obtain ⟨f3, z3⟩ := add_zero_rv f1 f2 (by rw [z1, z2, add_zero])
      refine ⟨f3, ?_⟩
      rw [e1, e2, e3, hb.1, hb.2]
      have z4 : (DotPlan.eval (fin false 0) Flt.add Flt.mul Flt.fma l (s.add t)).rv = 0 := z3
      rw [z4]
      simp
    · set c := Nat.max s.cost t.cost with hc
      have hcost : (DotPlan.add s t).cost = c + 1 := by rw [DotPlan.cost, if_neg hb]
      have hm : (1 : ℝ) ≤ s.terms.length + t.terms.length := by
        have : 1 ≤ s.terms.length + t.terms.length := by
          by_contra hlt
          exact hb ⟨List.length_eq_zero_iff.1 (by omega), List.length_eq_zero_iff.1 (by omega)⟩
        exact_mod_cast this
      rw [e1, e3, hcost] at h
      rw [e1, e2, e3, hcost]
      set As := (s.terms.map fun k => |pairRv l k|).sum
      set At := (t.terms.map fun k => |pairRv l k|).sum
      have As0 : 0 ≤ As := hnn _
      have At0 : 0 ≤ At := hnn _
      have ms0 : (0 : ℝ) ≤ s.terms.length := Nat.cast_nonneg _
      have mt0 : (0 : ℝ) ≤ t.terms.length := Nat.cast_nonneg _
      have cs : s.cost ≤ c := le_max_left _ _
      have ct : t.cost ≤ c := le_max_right _ _
      have cs' : (s.cost : ℝ) ≤ c := by exact_mod_cast cs
      have ct' : (t.cost : ℝ) ≤ c := by exact_mod_cast ct
      have ks := pow_le_pow_right₀ hK cs
      have kt := pow_le_pow_right₀ hK ct
      have kc : K ^ c ≤ K ^ (c + 1) := pow_le_pow_right₀ hK (by omega)
      push_cast at h ⊢
      have hs1 : K ^ s.cost * (As + s.terms.length * s.cost * η) < Ω := by
        refine lt_of_le_of_lt (mul_le_mul (ks.trans kc) ?_ (by positivity) (by positivity)) h
        have : s.terms.length * s.cost * η ≤ (s.terms.length + t.terms.length) * (c + 1 : ℝ) * η := by
          gcongr <;> linarith
        linarith
      have ht1 : K ^ t.cost * (At + t.terms.length * t.cost * η) < Ω := by
        refine lt_of_le_of_lt (mul_le_mul (kt.trans kc) ?_ (by positivity) (by positivity)) h
        have : t.terms.length * t.cost * η ≤ (s.terms.length + t.terms.length) * (c + 1 : ℝ) * η := by
          gcongr <;> linarith
        linarith
      obtain ⟨f1, b1⟩ := ihs hs1
      obtain ⟨f2, b2⟩ := iht ht1
      have g1 : (K ^ s.cost - 1) * As + K ^ s.cost * (s.terms.length * s.cost * η) ≤
          (K ^ c - 1) * As + K ^ c * (s.terms.length * c * η) := by gcongr
      have g2 : (K ^ t.cost - 1) * At + K ^ t.cost * (t.terms.length * t.cost * η) ≤
          (K ^ c - 1) * At + K ^ c * (t.terms.length * c * η) := by gcongr
      set vs := DotPlan.eval (fin false 0) Flt.add Flt.mul Flt.fma l s with hvs
      set vt := DotPlan.eval (fin false 0) Flt.add Flt.mul Flt.fma l t with hvt
      have hx : |vs.rv + vt.rv - ((s.terms.map (pairRv l)).sum + (t.terms.map (pairRv l)).sum)| ≤
          (K ^ c - 1) * (As + At) + K ^ c * ((s.terms.length + t.terms.length) * c * η) := by
        rw [add_sub_add_comm]
        refine (abs_add_le _ _).trans ?_
        nlinarith
      have hs := plan_step (z := (vs + vt).rv) hK (hpow c) hm hη
        ((abs_add_le _ _).trans (add_le_add (habs s.terms) (habs t.terms))) hx
      have hlt : |vs.rv + vt.rv| < Ω := by
        refine lt_of_le_of_lt (hs.1.trans (mul_le_mul kc ?_ (by positivity) (by positivity))) h
        have : (s.terms.length + t.terms.length) * (c : ℝ) * η ≤ (s.terms.length + t.terms.length) * (c + 1 : ℝ) * η := by
          gcongr; linarith
        linarith
      have hf := add_isFin hΩ f1 f2 hlt
      refine ⟨hf, ?_⟩
      rw [pow_succ]
      exact hs.2 ((add_err hR hf).2.2.bound h0 h1 |>.trans_eq (by rw [hKd]))
  | fma s k ih =>
    obtain ⟨⟨f1, p1⟩, f2, p2⟩ := hk k
    have e1 : ((DotPlan.fma s k).terms.map fun k => |pairRv l k|).sum =
        (s.terms.map fun k => |pairRv l k|).sum + |pairRv l k| := by
      rw [DotPlan.terms, List.map_append, List.sum_append]; simp
    have e2 : ((DotPlan.fma s k).terms.map (pairRv l)).sum = (s.terms.map (pairRv l)).sum + pairRv l k := by
      rw [DotPlan.terms, List.map_append, List.sum_append]; simp
    have e3 : ((DotPlan.fma s k).terms.length : ℝ) = s.terms.length + 1 := by
      rw [DotPlan.terms, List.length_append]; simp
    have hcost : (DotPlan.fma s k).cost = s.cost + 1 := rfl
    rw [e1, e3, hcost] at h
    rw [e1, e2, e3, hcost]
    set c := s.cost
    set As := (s.terms.map fun k => |pairRv l k|).sum
    have As0 : 0 ≤ As := hnn _
    have ms0 : (0 : ℝ) ≤ s.terms.length := Nat.cast_nonneg _
    have a0 := abs_nonneg (pairRv l k)
    have kc : K ^ c ≤ K ^ (c + 1) := pow_le_pow_right₀ hK (by omega)
    have hQ := hpow c
    push_cast at h ⊢
    have hs1 : K ^ c * (As + s.terms.length * c * η) < Ω := by
      refine lt_of_le_of_lt (mul_le_mul kc ?_ (by positivity) (by positivity)) h
      have : s.terms.length * c * η ≤ (s.terms.length + 1) * (c + 1 : ℝ) * η := by
        gcongr <;> linarith
      linarith
    obtain ⟨f3, b3⟩ := ih hs1
    set vs := DotPlan.eval (fin false 0) Flt.add Flt.mul Flt.fma l s with hvs
    have hx : |pairRv l k + vs.rv - ((s.terms.map (pairRv l)).sum + pairRv l k)| ≤
        (K ^ c - 1) * (As + |pairRv l k|) + K ^ c * ((s.terms.length + 1) * c * η) := by
      rw [show pairRv l k + vs.rv - ((s.terms.map (pairRv l)).sum + pairRv l k) = vs.rv - (s.terms.map (pairRv l)).sum by ring]
      have : 0 ≤ (K ^ c - 1) * |pairRv l k| := mul_nonneg (by linarith) a0
      have : 0 ≤ K ^ c * (c * η) := by positivity
      nlinarith
    have hs := plan_step (z := (Flt.fma (l.getD k (fin false 0, fin false 0)).1 (l.getD k (fin false 0, fin false 0)).2 vs).rv)
      hK hQ (by linarith : (1 : ℝ) ≤ s.terms.length + 1) hη
      ((abs_add_le _ _).trans (add_le_add (habs s.terms) le_rfl)) hx
    have hlt : |pairRv l k + vs.rv| < Ω := by
      refine lt_of_le_of_lt (hs.1.trans (mul_le_mul kc ?_ (by positivity) (by positivity))) h
      have : (s.terms.length + 1) * (c : ℝ) * η ≤ (s.terms.length + 1) * (c + 1 : ℝ) * η := by
        gcongr; linarith
      linarith
    obtain ⟨hf, he⟩ := fma_range hR hΩ f1 f2 f3 hlt
    refine ⟨hf, ?_⟩
    rw [pow_succ]
    exact hs.2 ((he.bound h0 h1).trans_eq (by rw [hKd]; rfl))

end LinfaLinalg
