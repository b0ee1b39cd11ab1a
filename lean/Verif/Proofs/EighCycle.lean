import Mathlib.Topology.Order.IntermediateValue
import Mathlib.Topology.Order.Compact
import Mathlib.Topology.Instances.Real.Lemmas
import Mathlib.Analysis.SpecialFunctions.Sqrt
import Verif.Proofs.EighTerm

/-! # An orbit that never leaves a region

Used for `Props/EighCycle.lean`: if a continuous map stretches a strip across itself, then on every path
that crosses the strip some point stays in the strip for ever. -/

namespace LinfaLinalg

open Set

/-- Part of a path on which a function stays between two values and takes them at the ends. -/
theorem exists_crossing {h : ℝ → ℝ} {a b r1 r2 : ℝ} (hab : a ≤ b) (hc : ContinuousOn h (Icc a b))
    (h1 : h a ≤ r1) (h2 : r2 ≤ h b) (hr : r1 < r2) :
    ∃ a' b', a ≤ a' ∧ a' ≤ b' ∧ b' ≤ b ∧ h a' = r1 ∧ h b' = r2 ∧ ∀ t ∈ Icc a' b', h t ∈ Icc r1 r2 := by
  -- the first time at which `h` is at least `r2`
  have k1 : IsCompact (Icc a b ∩ h ⁻¹' Ici r2) :=
    isCompact_Icc.of_isClosed_subset (hc.preimage_isClosed_of_isClosed isClosed_Icc isClosed_Ici)
      inter_subset_left
  obtain ⟨b', ⟨hb1, hb2⟩, hbl⟩ := k1.exists_isLeast ⟨b, ⟨hab, le_rfl⟩, h2⟩
  have hsub : Icc a b' ⊆ Icc a b := Icc_subset_Icc le_rfl hb1.2
  have hc' : ContinuousOn h (Icc a b') := hc.mono hsub
  -- the last time before at which `h` is at most `r1`
  have k2 : IsCompact (Icc a b' ∩ h ⁻¹' Iic r1) :=
    isCompact_Icc.of_isClosed_subset (hc'.preimage_isClosed_of_isClosed isClosed_Icc isClosed_Iic)
      inter_subset_left
  obtain ⟨a', ⟨ha1, ha2⟩, hag⟩ := k2.exists_isGreatest ⟨a, ⟨le_rfl, hb1.1⟩, h1⟩
  have hlow : ∀ t ∈ Icc a b', h t ≤ r1 → t ≤ a' := fun t ht hle => hag ⟨ht, hle⟩
  have hupp : ∀ t ∈ Icc a b, r2 ≤ h t → b' ≤ t := fun t ht hle => hbl ⟨ht, hle⟩
  have hca : ContinuousOn h (Icc a' b') := hc'.mono (Icc_subset_Icc ha1.1 le_rfl)
  have hb2' : r2 ≤ h b' := hb2
  have ha2' : h a' ≤ r1 := ha2
  have ea : h a' = r1 := by
    obtain ⟨t, ht, e⟩ := intermediate_value_Icc ha1.2 hca ⟨ha2', hr.le.trans hb2'⟩
    have := hlow t ⟨ha1.1.trans ht.1, ht.2⟩ e.le
    rw [← e, le_antisymm this ht.1]
  have eb : h b' = r2 := by
    obtain ⟨t, ht, e⟩ := intermediate_value_Icc ha1.2 hca ⟨ha2'.trans hr.le, hb2'⟩
    have := hupp t (hsub ⟨ha1.1.trans ht.1, ht.2⟩) e.ge
    rw [← e, le_antisymm ht.2 this]
  refine ⟨a', b', ha1.1, ha1.2, hb1.2, ea, eb, fun t ht => ⟨?_, ?_⟩⟩
  · by_contra hlt
    push Not at hlt
    have := hlow t ⟨ha1.1.trans ht.1, ht.2⟩ hlt.le
    rw [le_antisymm this ht.1, ea] at hlt
    exact lt_irrefl _ hlt
  · by_contra hlt
    push Not at hlt
    have := hupp t (hsub ⟨ha1.1.trans ht.1, ht.2⟩) hlt.le
    rw [le_antisymm ht.2 this, eb] at hlt
    exact lt_irrefl _ hlt

/-- A map that stretches a strip across itself has, on every path across the strip, a point whose orbit
never leaves the strip. -/
theorem exists_orbit {X : Type} [TopologicalSpace X] {F : X → X} {f : X → ℝ} {D : Set X} {r1 r2 : ℝ}
    (hF : ContinuousOn F D) (hf : Continuous f) (hr : r1 < r2)
    (hD : ∀ x ∈ D, f (F x) ∈ Icc r1 r2 → F x ∈ D)
    (h1 : ∀ x ∈ D, f x = r1 → f (F x) ≤ r1) (h2 : ∀ x ∈ D, f x = r2 → r2 ≤ f (F x))
    {γ : ℝ → X} {a b : ℝ} (hab : a ≤ b) (hγ : ContinuousOn γ (Icc a b)) (hm : MapsTo γ (Icc a b) D)
    (ha : f (γ a) = r1) (hb : f (γ b) = r2) : ∃ t ∈ Icc a b, ∀ k, F^[k] (γ t) ∈ D := by
  set Q : ℕ → ℝ × ℝ → Prop := fun k p => p.1 ≤ p.2 ∧ ContinuousOn (fun t => F^[k] (γ t)) (Icc p.1 p.2) ∧
    MapsTo (fun t => F^[k] (γ t)) (Icc p.1 p.2) D ∧ f (F^[k] (γ p.1)) = r1 ∧ f (F^[k] (γ p.2)) = r2 with hQ
  have hstep : ∀ k p, Q k p → ∃ p', Q (k + 1) p' ∧ p.1 ≤ p'.1 ∧ p'.2 ≤ p.2 := by
    rintro k p ⟨q1, q2, q3, q4, q5⟩
    have q6 : ContinuousOn (fun t => F^[k + 1] (γ t)) (Icc p.1 p.2) := by
      simp only [Function.iterate_succ', Function.comp]
      exact hF.comp q2 q3
    have e1 : ∀ t, F^[k + 1] (γ t) = F (F^[k] (γ t)) := fun t => by
      rw [Function.iterate_succ', Function.comp]
    obtain ⟨a', b', c1, c2, c3, c4, c5, c6⟩ := exists_crossing (h := fun t => f (F^[k + 1] (γ t))) q1
      (hf.comp_continuousOn q6)
      (by simp only [e1]; exact h1 _ (q3 ⟨le_rfl, q1⟩) q4)
      (by simp only [e1]; exact h2 _ (q3 ⟨q1, le_rfl⟩) q5) hr
    refine ⟨(a', b'), ⟨c2, q6.mono (Icc_subset_Icc c1 c3), ?_, c4, c5⟩, c1, c3⟩
    intro t ht
    have := c6 t ht
    simp only [e1] at this ⊢
    exact hD _ (q3 ⟨c1.trans ht.1, ht.2.trans c3⟩) this
  choose! g hg using hstep
  set u : ℕ → ℝ × ℝ := fun k => Nat.rec (a, b) (fun k p => g k p) k with hu
  have hus : ∀ k, u (k + 1) = g k (u k) := fun k => rfl
  have hQu : ∀ k, Q k (u k) := by
    intro k
    induction k with
    | zero => exact ⟨hab, hγ, hm, ha, hb⟩
    | succ k ih => rw [hus]; exact (hg k _ ih).1
  have hmono : Monotone fun k => (u k).1 :=
    monotone_nat_of_le_succ fun k => by rw [hus]; exact (hg k _ (hQu k)).2.1
  have hanti : Antitone fun k => (u k).2 :=
    antitone_nat_of_succ_le fun k => by rw [hus]; exact (hg k _ (hQu k)).2.2
  have hmem := hmono.ciSup_mem_iInter_Icc_of_antitone hanti (fun k => (hQu k).1)
  rw [mem_iInter] at hmem
  exact ⟨_, hmem 0, fun k => (hQu k).2.2.1 (hmem k)⟩

/-! ## The map

A symmetric tridiagonal 3×3 matrix with the eigenvalues `1`, `-1`, `0` is described by the squares of the
last components of its eigenvectors, which are in the ratio `s² (1 + r s) / 2 : s² (1 - r s) / 2 : 1`. -/

/-- The last diagonal entry. -/
noncomputable def cycZ (x : ℝ × ℝ) : ℝ := x.2 * x.1 ^ 3 / (1 + x.1 ^ 2)

/-- The square of the last off-diagonal entry. -/
noncomputable def cycP (x : ℝ × ℝ) : ℝ := x.1 ^ 2 * (1 + x.1 ^ 2 - x.2 ^ 2 * x.1 ^ 4) / (1 + x.1 ^ 2) ^ 2

/-- The last diagonal entry but one. -/
noncomputable def cycY (x : ℝ × ℝ) : ℝ :=
  x.2 * x.1 * (1 - x.1 ^ 4 + x.2 ^ 2 * x.1 ^ 6) / ((1 + x.1 ^ 2) * (1 + x.1 ^ 2 - x.2 ^ 2 * x.1 ^ 4))

/-- Minus the Wilkinson shift, over `s`. -/
noncomputable def cycT (x : ℝ × ℝ) : ℝ :=
  -(cycZ x - cycP x / ((cycY x - cycZ x) / 2 + Real.sqrt (((cycY x - cycZ x) / 2) ^ 2 + cycP x))) / x.1

/-- `1 + t² s² - 2 t r s²` -/
noncomputable def cycN (x : ℝ × ℝ) : ℝ := 1 + cycT x ^ 2 * x.1 ^ 2 - 2 * cycT x * x.2 * x.1 ^ 2

/-- One step with the Wilkinson shift, in these coordinates. -/
noncomputable def cycF (x : ℝ × ℝ) : ℝ × ℝ :=
  (cycT x * x.1 ^ 2 * Real.sqrt (cycN x) / (1 - cycT x ^ 2 * x.1 ^ 2),
   (x.2 * (1 + cycT x ^ 2 * x.1 ^ 2) - 2 * cycT x) * (1 - cycT x ^ 2 * x.1 ^ 2) /
    (cycT x * x.1 * Real.sqrt (cycN x) ^ 3))

/-- The strip. -/
def cycD : Set (ℝ × ℝ) := {x | 0 < x.1 ∧ x.1 ≤ 1 / 20 ∧ x.2 ∈ Icc (1 : ℝ) (4 / 3)}

theorem cyc_basic {x : ℝ × ℝ} (hx : x ∈ cycD) : ∃ Y Z P : ℝ, cycY x = Y * x.1 ∧ cycZ x = Z * x.1 ∧
    cycP x = P * x.1 ^ 2 ∧ 0 ≤ Z ∧ Z ≤ 1 / 250 ∧ 99 / 100 ≤ P ∧ P ≤ 1 ∧ 99 / 100 * x.2 ≤ Y ∧ Y ≤ x.2 := by
  obtain ⟨s, r⟩ := x
  obtain ⟨h1, h2, h3, h4⟩ := hx
  simp only at h1 h2 h3 h4
  have hs2 : s ^ 2 ≤ 1 / 400 := by nlinarith
  have hs2' : 0 < s ^ 2 := by positivity
  have hr2 : r ^ 2 ≤ 16 / 9 := by nlinarith
  have hq : r ^ 2 * s ^ 4 ≤ 1 / 200 * s ^ 2 := by
    have : r ^ 2 * s ^ 4 = (r ^ 2 * s ^ 2) * s ^ 2 := by ring
    rw [this]
    have h5 : r ^ 2 * s ^ 2 ≤ 16 / 9 * (1 / 400) := by gcongr
    nlinarith
  have hq0 : 0 ≤ r ^ 2 * s ^ 4 := by positivity
  have hc : r ^ 2 * s ^ 6 ≤ s ^ 4 := by
    have : r ^ 2 * s ^ 6 = (r ^ 2 * s ^ 2) * s ^ 4 := by ring
    rw [this]
    have h5 : r ^ 2 * s ^ 2 ≤ 16 / 9 * (1 / 400) := by gcongr
    have : 0 ≤ s ^ 4 := by positivity
    nlinarith
  have hs4 : s ^ 4 ≤ 1 / 400 * s ^ 2 := by
    have : s ^ 4 = s ^ 2 * s ^ 2 := by ring
    rw [this]; gcongr
  have hc0 : 0 ≤ r ^ 2 * s ^ 6 := by positivity
  have hN : 0 < 1 + s ^ 2 := by positivity
  have hM : 0 < 1 + s ^ 2 - r ^ 2 * s ^ 4 := by nlinarith
  have hr0 : 0 < r := by linarith
  refine ⟨r * ((1 - s ^ 4 + r ^ 2 * s ^ 6) / ((1 + s ^ 2) * (1 + s ^ 2 - r ^ 2 * s ^ 4))),
    r * s ^ 2 / (1 + s ^ 2), (1 + s ^ 2 - r ^ 2 * s ^ 4) / (1 + s ^ 2) ^ 2, ?_, ?_, ?_, ?_, ?_, ?_, ?_, ?_, ?_⟩
  · simp only [cycY]; ring
  · simp only [cycZ]; ring
  · simp only [cycP]; ring
  · positivity
  · rw [div_le_iff₀ hN]; nlinarith
  · rw [le_div_iff₀ (by positivity)]; nlinarith
  · rw [div_le_one (by positivity)]; nlinarith
  · simp only
    rw [mul_comm]
    refine mul_le_mul_of_nonneg_left ?_ hr0.le
    rw [le_div_iff₀ (by positivity)]
    nlinarith
  · simp only
    refine mul_le_of_le_one_right hr0.le ?_
    rw [div_le_one (by positivity)]
    nlinarith

/-- The quadratic equation for the shift. -/
theorem cyc_quad {Y Z P s : ℝ} (hs : 0 < s) (hP : 0 < P) (hYZ : Z ≤ Y) :
    let t := -(Z * s - P * s ^ 2 / ((Y * s - Z * s) / 2 +
      Real.sqrt (((Y * s - Z * s) / 2) ^ 2 + P * s ^ 2))) / s
    (Y + t) * (Z + t) = P ∧ 0 < Z + t := by
  intro t
  set d := (Y - Z) / 2 with hd
  have hd0 : 0 ≤ d := by rw [hd]; linarith
  set q := Real.sqrt (d ^ 2 + P) with hq
  have hq2 : q ^ 2 = d ^ 2 + P := Real.sq_sqrt (by positivity)
  have hq0 : 0 < q := Real.sqrt_pos.2 (by positivity)
  have e1 : Real.sqrt (((Y * s - Z * s) / 2) ^ 2 + P * s ^ 2) = s * q := by
    rw [show ((Y * s - Z * s) / 2) ^ 2 + P * s ^ 2 = s ^ 2 * (d ^ 2 + P) by rw [hd]; ring,
      Real.sqrt_mul (by positivity), Real.sqrt_sq hs.le]
  have e2 : t = -Z + P / (d + q) := by
    simp only [t]
    rw [e1, show (Y * s - Z * s) / 2 = s * d by rw [hd]; ring]
    field_simp
    ring
  have e3 : Y = Z + 2 * d := by rw [hd]; ring
  have e4 : P = (q - d) * (q + d) := by linear_combination -hq2
  have e5 : P / (d + q) = q - d := by
    rw [e4, add_comm q d, mul_div_assoc, div_self (by positivity), mul_one]
  constructor
  · rw [e2, e5, e3]
    linear_combination hq2
  · rw [e2]
    have : 0 < P / (d + q) := by positivity
    linarith

theorem cyc_tau {x : ℝ × ℝ} (hx : x ∈ cycD) : 49 / 100 < cycT x ∧ cycT x < 67 / 100 ∧
    (x.2 = 1 → 59 / 100 < cycT x) ∧ (x.2 = 4 / 3 → cycT x < 56 / 100) := by
  obtain ⟨Y, Z, P, e1, e2, e3, b1, b2, b3, b4, b5, b6⟩ := cyc_basic hx
  have hx2 := hx.2.2
  have hs := hx.1
  obtain ⟨q1, q2⟩ := cyc_quad (Y := Y) (Z := Z) (P := P) hs (by linarith) (by linarith [hx2.1])
  simp only [← e1, ← e2, ← e3] at q1 q2
  change (Y + cycT x) * (Z + cycT x) = P at q1
  change 0 < Z + cycT x at q2
  set t := cycT x
  have hY : 99 / 100 ≤ Y := by linarith [hx2.1]
  have hY' : Y ≤ 4 / 3 := by linarith [hx2.2]
  refine ⟨?_, ?_, ?_, ?_⟩
  · by_contra h; push Not at h
    nlinarith [mul_le_mul (show Y + t ≤ 4 / 3 + 49 / 100 by linarith) (show Z + t ≤ 1 / 250 + 49 / 100 by linarith) q2.le (by linarith)]
  · by_contra h; push Not at h
    nlinarith [mul_le_mul (show 99 / 100 + 67 / 100 ≤ Y + t by linarith) (show (67 / 100 : ℝ) ≤ Z + t by linarith) (by norm_num) (by linarith)]
  · intro h1
    by_contra h; push Not at h
    nlinarith [mul_le_mul (show Y + t ≤ 1 + 59 / 100 by linarith) (show Z + t ≤ 1 / 250 + 59 / 100 by linarith) q2.le (by linarith)]
  · intro h1
    by_contra h; push Not at h
    nlinarith [mul_le_mul (show 132 / 100 + 56 / 100 ≤ Y + t by linarith) (show (56 / 100 : ℝ) ≤ Z + t by linarith) (by norm_num) (by linarith)]

theorem cyc_num {x : ℝ × ℝ} (hx : x ∈ cycD) : 0 ≤ cycT x ^ 2 * x.1 ^ 2 ∧ cycT x ^ 2 * x.1 ^ 2 ≤ 1 / 800 ∧
    1 / 2 ≤ cycN x ∧ cycN x ≤ 1 := by
  obtain ⟨t1, t2, -, -⟩ := cyc_tau hx
  obtain ⟨h1, h2, h3, h4⟩ := hx
  unfold cycN
  set t := cycT x
  have hs2 : x.1 ^ 2 ≤ 1 / 400 := by nlinarith
  have hs0 : 0 < x.1 ^ 2 := by positivity
  have ht2 : t ^ 2 ≤ 1 / 2 := by nlinarith
  have a1 : t ^ 2 * x.1 ^ 2 ≤ 1 / 2 * (1 / 400) := by gcongr
  have a2 : t * x.2 ≤ 1 := by nlinarith
  have a3 : t ^ 2 ≤ 2 * (t * x.2) := by nlinarith
  refine ⟨by positivity, by linarith, ?_, ?_⟩
  · nlinarith
  · nlinarith

theorem cyc_den {x : ℝ × ℝ} (hx : x ∈ cycD) : 0 < 1 + x.1 ^ 2 - x.2 ^ 2 * x.1 ^ 4 ∧
    0 < (cycY x - cycZ x) / 2 + Real.sqrt (((cycY x - cycZ x) / 2) ^ 2 + cycP x) := by
  obtain ⟨Y, Z, P, e1, e2, e3, b1, b2, b3, b4, b5, b6⟩ := cyc_basic hx
  obtain ⟨h1, h2, h3, h4⟩ := hx
  constructor
  · have hs2 : x.1 ^ 2 ≤ 1 / 400 := by nlinarith
    have hr2 : x.2 ^ 2 ≤ 16 / 9 := by nlinarith
    have : x.2 ^ 2 * x.1 ^ 4 = (x.2 ^ 2 * x.1 ^ 2) * x.1 ^ 2 := by ring
    have h5 : x.2 ^ 2 * x.1 ^ 2 ≤ 16 / 9 * (1 / 400) := by gcongr
    nlinarith [sq_nonneg x.1]
  · rw [e1, e2, e3]
    have : 0 ≤ (Y * x.1 - Z * x.1) / 2 := by
      rw [← sub_mul]
      have : 0 ≤ Y - Z := by linarith
      positivity
    have : 0 < Real.sqrt (((Y * x.1 - Z * x.1) / 2) ^ 2 + P * x.1 ^ 2) := by
      apply Real.sqrt_pos.2
      have : 0 < P * x.1 ^ 2 := by positivity
      positivity
    linarith

theorem cycF_continuousOn : ContinuousOn cycF cycD := by
  have c1 : ContinuousOn (fun x : ℝ × ℝ => x.1) cycD := continuous_fst.continuousOn
  have c2 : ContinuousOn (fun x : ℝ × ℝ => x.2) cycD := continuous_snd.continuousOn
  have hN : ∀ x ∈ cycD, 1 + x.1 ^ 2 ≠ 0 := fun x _ => by positivity
  have hz : ContinuousOn cycZ cycD := ContinuousOn.div (by fun_prop) (by fun_prop) hN
  have hp : ContinuousOn cycP cycD := ContinuousOn.div (by fun_prop) (by fun_prop) fun x hx => pow_ne_zero _ (hN x hx)
  have hy : ContinuousOn cycY cycD := ContinuousOn.div (by fun_prop) (by fun_prop)
    fun x hx => mul_ne_zero (hN x hx) (cyc_den hx).1.ne'
  have ht : ContinuousOn cycT cycD := by
    refine ContinuousOn.div (ContinuousOn.neg (hz.sub (hp.div ?_ fun x hx => (cyc_den hx).2.ne'))) c1
      fun x hx => hx.1.ne'
    exact ((hy.sub hz).div_const _).add ((((hy.sub hz).div_const _).pow 2).add hp).sqrt
  have hn : ContinuousOn cycN cycD := by
    unfold cycN
    fun_prop
  refine ContinuousOn.prodMk (ContinuousOn.div ?_ ?_ fun x hx => ?_) (ContinuousOn.div ?_ ?_ fun x hx => ?_)
  · exact (ht.mul (c1.pow 2)).mul hn.sqrt
  · fun_prop
  · have := cyc_num hx
    linarith
  · fun_prop
  · exact (ht.mul c1).mul (hn.sqrt.pow 3)
  · have := cyc_num hx
    have h2 := (cyc_tau hx).1
    have h3 : 0 < Real.sqrt (cycN x) := Real.sqrt_pos.2 (by linarith)
    have h4 := hx.1
    have : 0 < cycT x := by linarith
    positivity

theorem cycF_maps {x : ℝ × ℝ} (hx : x ∈ cycD) : 0 < (cycF x).1 ∧ (cycF x).1 ≤ 1 / 20 ∧
    (x.2 = 1 → (cycF x).2 ≤ 1) ∧ (x.2 = 4 / 3 → 4 / 3 ≤ (cycF x).2) := by
  obtain ⟨n1, n2, n3, n4⟩ := cyc_num hx
  obtain ⟨t1, t2, t3, t4⟩ := cyc_tau hx
  have hs := hx.1
  have hs' := hx.2.1
  simp only [cycF]
  set t := cycT x
  set w := Real.sqrt (cycN x) with hw
  have hw0 : 0 < w := Real.sqrt_pos.2 (by linarith)
  have hw1 : w ≤ 1 := Real.sqrt_le_one.2 n4
  have ht0 : 0 < t := by linarith
  have hd : 0 < 1 - t ^ 2 * x.1 ^ 2 := by linarith
  refine ⟨by positivity, ?_, ?_, ?_⟩
  · rw [div_le_iff₀ hd]
    have a1 : t * x.1 ^ 2 * w ≤ 67 / 100 * (1 / 20) ^ 2 * 1 := by gcongr
    linarith
  · intro h
    have := t3 h
    refine (div_nonpos_of_nonpos_of_nonneg ?_ (by positivity)).trans zero_le_one
    refine mul_nonpos_of_nonpos_of_nonneg ?_ hd.le
    rw [h]; linarith
  · intro h
    have := t4 h
    have hw3 : w ^ 3 ≤ 1 := pow_le_one₀ hw0.le hw1
    rw [le_div_iff₀ (by positivity), h]
    have a1 : t * x.1 * w ^ 3 ≤ 56 / 100 * (1 / 20) * 1 := by gcongr
    have a2 : (1 / 5 : ℝ) ≤ 4 / 3 * (1 + t ^ 2 * x.1 ^ 2) - 2 * t := by linarith
    have a3 : (1 / 5 : ℝ) * (1 / 2) ≤ (4 / 3 * (1 + t ^ 2 * x.1 ^ 2) - 2 * t) * (1 - t ^ 2 * x.1 ^ 2) :=
      mul_le_mul a2 (by linarith) (by norm_num) (by linarith)
    linarith

/-- A point whose orbit never leaves the strip. -/
theorem exists_cycle : ∃ r : ℝ, ∀ k, cycF^[k] (1 / 20, r) ∈ cycD := by
  obtain ⟨t, -, ht⟩ := exists_orbit (F := cycF) (f := Prod.snd) (D := cycD) (r1 := 1) (r2 := 4 / 3)
    cycF_continuousOn continuous_snd (by norm_num)
    (fun x hx h => ⟨(cycF_maps hx).1, (cycF_maps hx).2.1, h⟩)
    (fun x hx h => (cycF_maps hx).2.2.1 h) (fun x hx h => (cycF_maps hx).2.2.2 h)
    (γ := fun r => (1 / 20, r)) (a := 1) (b := 4 / 3) (by norm_num) (by fun_prop)
    (fun r hr => ⟨by norm_num, le_rfl, hr⟩) rfl rfl
  exact ⟨t, ht⟩

/-! ## One iteration -/

open Matrix

/-- The matrix of one of the states of `cycD`, up to the signs of the off-diagonal entries. -/
structure CycInv (κ : ℝ) (x : ℝ × ℝ) (d e : Nat → ℝ) : Prop where
  cube : tridiag 3 d e * tridiag 3 d e * tridiag 3 d e = κ ^ 2 • tridiag 3 d e
  tr : (tridiag 3 d e).trace = 0
  trsq : (tridiag 3 d e * tridiag 3 d e).trace = 2 * κ ^ 2
  z : d 2 = κ * cycZ x
  p : e 1 ^ 2 = κ ^ 2 * cycP x

theorem tridiag3 (d e : Nat → ℝ) : tridiag 3 d e = !![d 0, e 0, 0; e 0, d 1, e 1; 0, e 1, d 2] := by
  ext i j
  fin_cases i <;> fin_cases j <;> simp [tridiag]

theorem CycInv.scalars {κ : ℝ} {x : ℝ × ℝ} {d e : Nat → ℝ} (h : CycInv κ x d e) :
    d 0 + d 1 + d 2 = 0 ∧ d 0 ^ 2 + d 1 ^ 2 + d 2 ^ 2 + 2 * e 0 ^ 2 + 2 * e 1 ^ 2 = 2 * κ ^ 2 ∧
    d 1 * e 1 ^ 2 + 2 * d 2 * e 1 ^ 2 + d 2 ^ 3 = κ ^ 2 * d 2 := by
  obtain ⟨h1, h2, h3, -, -⟩ := h
  rw [tridiag3] at h1 h2 h3
  refine ⟨?_, ?_, ?_⟩
  · simpa [Matrix.trace_fin_three] using h2
  · simp [Matrix.trace_fin_three] at h3
    linarith
  · have := congrFun (congrFun h1 2) 2
    simp at this
    linarith

/-- The last diagonal entry but one is determined by the others. -/
theorem CycInv.y {κ : ℝ} {x : ℝ × ℝ} {d e : Nat → ℝ} (h : CycInv κ x d e) (hκ : 0 < κ)
    (hx : x ∈ cycD) : d 1 = κ * cycY x := by
  obtain ⟨-, -, h3⟩ := h.scalars
  have hd := (cyc_den hx).1
  have hs := hx.1
  rw [h.z, h.p] at h3
  unfold cycY
  unfold cycZ cycP at h3
  have hN : 0 < 1 + x.1 ^ 2 := by positivity
  set M := 1 + x.1 ^ 2 - x.2 ^ 2 * x.1 ^ 4 with hM
  have hne : x.1 ^ 2 * M / (1 + x.1 ^ 2) ^ 2 * κ ^ 2 ≠ 0 := by positivity
  refine mul_right_cancel₀ hne ?_
  field_simp
  field_simp at h3
  linear_combination h3 + (2 * κ * x.2 * x.1^3 - κ * x.2 * x.1) * hM

theorem le_of_sq_le_sq' {a b : ℝ} (h : a ^ 2 ≤ b ^ 2) (hb : 0 ≤ b) : a ≤ b :=
  (abs_le_of_sq_le_sq' h hb).2

theorem cyc_big_aux {κ v eps d0 d1 d2 e0 e1 : ℝ} (hv : 0 < v) (hvκ : v ≤ 1 / 20 * κ)
    (heps1 : eps ≤ 1 / 100) (a1 : |d1| ≤ 4 / 3 * v) (a2 : |d2| ≤ 1 / 250 * v)
    (h1 : d0 + d1 + d2 = 0) (h2 : d0 ^ 2 + d1 ^ 2 + d2 ^ 2 + 2 * e0 ^ 2 + 2 * e1 ^ 2 = 2 * κ ^ 2)
    (hp : e1 ^ 2 ≤ v ^ 2) (hp' : 99 / 100 * v ^ 2 ≤ e1 ^ 2) :
    eps * (|d2| + |d1|) < |e1| ∧ eps * (|d1| + |d0|) < |e0| := by
  have a0 : |d0| ≤ 2 * v := by
    rw [show d0 = -(d1 + d2) by linarith, abs_neg]
    exact (abs_add_le _ _).trans (by linarith)
  have hκ : 0 < κ := by linarith
  have hv2 : 0 < v ^ 2 := by positivity
  have hκ2 : 0 < κ ^ 2 := by positivity
  have hs2 : v ^ 2 ≤ 1 / 400 * κ ^ 2 := by
    calc v ^ 2 ≤ (1 / 20 * κ) ^ 2 := pow_le_pow_left₀ hv.le hvκ 2
      _ = _ := by ring
  have sq_le : ∀ {w c : ℝ}, |w| ≤ c * v → w ^ 2 ≤ c ^ 2 * v ^ 2 := by
    intro w c hw
    rw [← mul_pow, ← sq_abs w]
    exact pow_le_pow_left₀ (abs_nonneg _) hw 2
  have q0 := sq_le a0
  have q1 := sq_le a1
  have q2 := sq_le a2
  have c1 : 1 / 2 * v ≤ |e1| := by
    refine le_of_sq_le_sq' ?_ (abs_nonneg _)
    rw [sq_abs, mul_pow]
    linarith
  have c0 : 1 / 2 * κ ≤ |e0| := by
    refine le_of_sq_le_sq' ?_ (abs_nonneg _)
    rw [sq_abs, mul_pow]
    linarith
  constructor
  · calc eps * (|d2| + |d1|) ≤ 1 / 100 * (1 / 250 * v + 4 / 3 * v) := by gcongr
      _ < 1 / 2 * v := by linarith
      _ ≤ _ := c1
  · calc eps * (|d1| + |d0|) ≤ 1 / 100 * (4 / 3 * v + 2 * v) := by gcongr
      _ < 1 / 2 * κ := by linarith
      _ ≤ _ := c0

/-- Neither off-diagonal entry is negligible. -/
theorem CycInv.big {κ eps : ℝ} {x : ℝ × ℝ} {d e : Nat → ℝ} (h : CycInv κ x d e) (hκ : 0 < κ)
    (hx : x ∈ cycD) (heps1 : eps ≤ 1 / 100) :
    eps * (|d 2| + |d 1|) < |e 1| ∧ eps * (|d 1| + |d 0|) < |e 0| := by
  obtain ⟨Y, Z, P, e1, e2, e3, b1, b2, b3, b4, b5, b6⟩ := cyc_basic hx
  obtain ⟨h1, h2, -⟩ := h.scalars
  have hy := h.y hκ hx
  have hz := h.z
  have hp := h.p
  obtain ⟨s1, s2, s3, s4⟩ := hx
  rw [e1] at hy
  rw [e2] at hz
  rw [e3] at hp
  have hks : 0 < κ * x.1 := by positivity
  have hY : 0 ≤ Y := by linarith
  have hk2 : 0 < (κ * x.1) ^ 2 := by positivity
  have hp' : e 1 ^ 2 = P * (κ * x.1) ^ 2 := by rw [hp]; ring
  refine cyc_big_aux (κ := κ) hks ?_ heps1 ?_ ?_ h1 h2 ?_ ?_
  · rw [mul_comm]; exact mul_le_mul_of_nonneg_right s2 hκ.le
  · rw [hy, show κ * (Y * x.1) = Y * (κ * x.1) by ring, abs_of_nonneg (by positivity)]
    exact mul_le_mul_of_nonneg_right (by linarith) hks.le
  · rw [hz, show κ * (Z * x.1) = Z * (κ * x.1) by ring, abs_of_nonneg (by positivity)]
    exact mul_le_mul_of_nonneg_right b2 hks.le
  · rw [hp']; exact mul_le_of_le_one_left hk2.le b4
  · rw [hp']; exact mul_le_mul_of_nonneg_right b3 hk2.le

/-- The shift. -/
theorem CycInv.shift {κ : ℝ} {x : ℝ × ℝ} {d e : Nat → ℝ} (h : CycInv κ x d e) (hκ : 0 < κ)
    (hx : x ∈ cycD) : wilkinsonShift (d 1) (d 2) (e 1) = -(κ * (cycT x * x.1)) := by
  obtain ⟨Y, Z, P, e1, e2, e3, b1, b2, b3, b4, b5, b6⟩ := cyc_basic hx
  have hy := h.y hκ hx
  have hz := h.z
  have hp := h.p
  have hs := hx.1
  have hne : e 1 ≠ 0 := by
    intro h0
    rw [h0, e3] at hp
    have : 0 < κ ^ 2 * (P * x.1 ^ 2) := by positivity
    simp at hp
    rcases hp with hp | hp | hp <;> linarith
  have hd : 0 < cycY x - cycZ x := by
    rw [e1, e2, ← sub_mul]
    have : 0 < Y - Z := by linarith [hx.2.2.1]
    positivity
  simp only [wilkinsonShift, real_isZero, hne, decide_false, Bool.not_false, if_true, real_ofRat,
      real_signum, real_sqrt]
  push_cast
  rw [hy, hz, ← pow_two (e 1), hp]
  rw [show (κ * cycY x - κ * cycZ x) * (1 / 2) = κ * ((cycY x - cycZ x) / 2) by ring]
  set D := (cycY x - cycZ x) / 2 with hD
  have hD0 : 0 < D := by rw [hD]; linarith
  rw [show κ * D * (κ * D) + κ ^ 2 * cycP x = κ ^ 2 * (D ^ 2 + cycP x) by ring,
    Real.sqrt_mul (by positivity), Real.sqrt_sq hκ.le, if_neg (not_lt.2 (by positivity)), one_mul]
  unfold cycT
  rw [← hD]
  have := (cyc_den hx).2
  rw [← hD] at this
  set q := Real.sqrt (D ^ 2 + cycP x)
  field_simp

/-- The scalar identities of one step. -/
theorem cyc_scalar {κ t s r ρ w z' Dl σ : ℝ} (hκ : 0 < κ) (hs : 0 < s) (ht : 0 < t)
    (hu : 0 < 1 - t ^ 2 * s ^ 2) (hn : 0 < 1 + t ^ 2 * s ^ 2 - 2 * t * r * s ^ 2)
    (hσ : σ = -(κ * (t * s))) (hDl : Dl = σ * (κ ^ 2 - σ ^ 2))
    (f1 : Dl * w = ρ * (κ ^ 2 * (s ^ 2 / (1 + s ^ 2)) + σ * (κ * (r * s ^ 3 / (1 + s ^ 2))) + (σ ^ 2 - κ ^ 2)))
    (f2 : Dl ^ 2 = ρ ^ 2 * ((3 * σ ^ 2 - κ ^ 2) * (κ ^ 2 * (s ^ 2 / (1 + s ^ 2))) +
      2 * σ ^ 3 * (κ * (r * s ^ 3 / (1 + s ^ 2))) + (σ ^ 2 - κ ^ 2) ^ 2))
    (f3 : z' = σ + ρ * w) (A B : ℝ)
    (hA : A = t ^ 2 * s ^ 4 * (1 + t ^ 2 * s ^ 2 - 2 * t * r * s ^ 2) / (1 - t ^ 2 * s ^ 2) ^ 2)
    (hB : B = (r * (1 + t ^ 2 * s ^ 2) - 2 * t) * t ^ 2 * s ^ 5 / (1 - t ^ 2 * s ^ 2) ^ 2) :
    z' = κ * (B / (1 + A)) ∧
    ρ ^ 2 - (z' - σ) ^ 2 = κ ^ 2 * ((A * (1 + A) - B ^ 2) / (1 + A) ^ 2) := by
  have hN : 0 < 1 + s ^ 2 := by positivity
  set k := (1 - t ^ 2 * s ^ 2) ^ 2 + t ^ 2 * s ^ 4 * (1 + t ^ 2 * s ^ 2 - 2 * t * r * s ^ 2) with hk
  have hk0 : 0 < k := by positivity
  set g1 := s ^ 2 - t * r * s ^ 4 - (1 - t ^ 2 * s ^ 2) * (1 + s ^ 2) with hg1
  have hDl' : Dl = -(κ ^ 3 * (t * s * (1 - t ^ 2 * s ^ 2))) := by rw [hDl, hσ]; ring
  have f1' : Dl * w = ρ * (κ ^ 2 * g1 / (1 + s ^ 2)) := by
    rw [f1, hσ, hg1]
    congr 1
    field_simp
    ring
  have f2' : Dl ^ 2 = ρ ^ 2 * (κ ^ 4 * k / (1 + s ^ 2)) := by
    rw [f2, hσ, hk]
    congr 1
    field_simp
    ring
  rw [hDl'] at f1' f2'
  set m := t * s * (1 - t ^ 2 * s ^ 2) with hm
  have hm0 : 0 < m := by positivity
  have r2 : ρ ^ 2 = κ ^ 2 * m ^ 2 * (1 + s ^ 2) / k := by
    have h1 : κ ^ 4 * k / (1 + s ^ 2) ≠ 0 := by positivity
    refine mul_right_cancel₀ h1 ?_
    rw [← f2']
    field_simp
  have rw2 : ρ * w = -(κ * m * g1 / k) := by
    have h1 : κ ^ 3 * m ≠ 0 := by positivity
    refine mul_left_cancel₀ h1 ?_
    have h2 : κ ^ 3 * m * (ρ * w) = -(ρ ^ 2 * (κ ^ 2 * g1 / (1 + s ^ 2))) := by
      linear_combination -ρ * f1'
    rw [h2, r2]
    field_simp
  have hA' : 1 + A = k / (1 - t ^ 2 * s ^ 2) ^ 2 := by
    rw [hA, hk]; field_simp
  have e1 : -(t * s * k) - m * g1 = (r * (1 + t ^ 2 * s ^ 2) - 2 * t) * t ^ 2 * s ^ 5 := by
    rw [hm, hg1, hk]; ring
  have e2 : m ^ 2 * ((1 + s ^ 2) * k - g1 ^ 2) =
      t ^ 2 * s ^ 4 * (1 + t ^ 2 * s ^ 2 - 2 * t * r * s ^ 2) * k -
        ((r * (1 + t ^ 2 * s ^ 2) - 2 * t) * t ^ 2 * s ^ 5) ^ 2 := by
    rw [hm, hg1, hk]; ring
  constructor
  · rw [f3, rw2, hA', hB, hσ, ← e1]
    field_simp
    ring
  · rw [f3, add_sub_cancel_left, rw2, r2, hA']
    have e3 : A * (k / (1 - t ^ 2 * s ^ 2) ^ 2) - B ^ 2 =
        m ^ 2 * ((1 + s ^ 2) * k - g1 ^ 2) / (1 - t ^ 2 * s ^ 2) ^ 4 := by
      rw [hA, hB, e2]
      field_simp
    rw [e3]
    obtain ⟨q, hq⟩ : ∃ q, q = 1 - t ^ 2 * s ^ 2 := ⟨_, rfl⟩
    rw [← hq] at hu ⊢
    field_simp

/-- One step with the Wilkinson shift is one step of `cycF`. -/
theorem CycInv.step {κ σ : ℝ} {x : ℝ × ℝ} {d e d' e' : Nat → ℝ} {W : Matrix (Fin 3) (Fin 3) ℝ}
    (h : CycInv κ x d e) (hκ : 0 < κ) (hx : x ∈ cycD) (hW : QrStep 3 0 2 σ d e d' e' W)
    (hσ : σ = wilkinsonShift (d 1) (d 2) (e 1)) (he0 : e 0 ≠ 0) (he1 : e 1 ≠ 0) :
    CycInv κ (cycF x) d' e' := by
  have hup := hW.upper (by omega) (by intro k _ hk; interval_cases k; exacts [he0, he1]) (by simp) (by simp)
  have hm0 := hup 0 le_rfl (by omega) 2 (by omega) (by omega)
  have hm1 := hup 1 (by omega) (by omega) 2 (by omega) (by omega)
  obtain ⟨orth, sim, -, -, -⟩ := hW
  rw [ent_of _ (by omega) (by omega)] at hm0 hm1
  have orth' : W * Wᵀ = 1 := mul_eq_one_comm.1 orth
  have hz := h.z
  have hp := h.p
  have hsh := h.shift hκ hx
  obtain ⟨cube, tr, trsq, -, -⟩ := h
  set T := tridiag 3 d e with hT
  set T' := tridiag 3 d' e' with hT'
  set M := W * (T - σ • (1 : Matrix (Fin 3) (Fin 3) ℝ)) with hM
  have hTs : Tᵀ = T := tridiag_symm 3 d e
  have hTs' : T'ᵀ = T' := tridiag_symm 3 d' e'
  have hMW : M * Wᵀ = T' - σ • 1 := by
    rw [hM, Matrix.mul_sub, Matrix.sub_mul, sim, Matrix.mul_smul, Matrix.mul_one, Matrix.smul_mul, orth']
  have hMM : M * Mᵀ = (T' - σ • 1) * (T' - σ • 1) := by
    have : (T' - σ • (1 : Matrix (Fin 3) (Fin 3) ℝ))ᵀ = T' - σ • 1 := by
      rw [Matrix.transpose_sub, hTs', Matrix.transpose_smul, Matrix.transpose_one]
    nth_rw 2 [← this]
    rw [← hMW, Matrix.transpose_mul M Wᵀ, Matrix.transpose_transpose, Matrix.mul_assoc M, ← Matrix.mul_assoc Wᵀ,
      orth, Matrix.one_mul]
  set G := T * T + σ • T + (σ ^ 2 - κ ^ 2) • (1 : Matrix (Fin 3) (Fin 3) ℝ) with hG
  have hGs : Gᵀ = G := by
    rw [hG, Matrix.transpose_add, Matrix.transpose_add, Matrix.transpose_mul, Matrix.transpose_smul,
      Matrix.transpose_smul, Matrix.transpose_one, hTs]
  set Dl := σ * (κ ^ 2 - σ ^ 2) with hDl
  have hTG : (T - σ • (1 : Matrix (Fin 3) (Fin 3) ℝ)) * G = Dl • 1 := by
    rw [hG]
    simp only [Matrix.sub_mul, Matrix.mul_add, Matrix.mul_smul, Matrix.smul_mul, Matrix.mul_one,
      Matrix.one_mul, ← Matrix.mul_assoc, cube, hDl]
    module
  have hGG : G * G = (3 * σ ^ 2 - κ ^ 2) • (T * T) + (2 * σ ^ 3) • T +
      ((σ ^ 2 - κ ^ 2) ^ 2) • (1 : Matrix (Fin 3) (Fin 3) ℝ) := by
    rw [hG]
    simp only [Matrix.add_mul, Matrix.mul_add, Matrix.mul_smul, Matrix.smul_mul, Matrix.mul_one,
      Matrix.one_mul, ← Matrix.mul_assoc, cube]
    module
  have hMG : M * G = Dl • W := by
    rw [hM, Matrix.mul_assoc, hTG, Matrix.mul_smul, Matrix.mul_one]
  have hMGG : M * (G * G) * Mᵀ = (Dl ^ 2) • 1 := by
    have : M * (G * G) * Mᵀ = (M * G) * (M * G)ᵀ := by
      rw [Matrix.transpose_mul M G, hGs]; simp only [Matrix.mul_assoc]
    rw [this, hMG, Matrix.transpose_smul, Matrix.smul_mul, Matrix.mul_smul, orth', smul_smul, pow_two]
  set ρ := M 2 2 with hρ
  -- entries
  have f1 : Dl * W 2 2 = ρ * (e 1 ^ 2 + d 2 ^ 2 + σ * d 2 + (σ ^ 2 - κ ^ 2)) := by
    have := congrFun (congrFun hMG 2) 2
    rw [Matrix.mul_apply, Fin.sum_univ_three] at this
    rw [show M 2 0 = 0 from hm0, show M 2 1 = 0 from hm1, ← hρ] at this
    have g : G 2 2 = e 1 ^ 2 + d 2 ^ 2 + σ * d 2 + (σ ^ 2 - κ ^ 2) := by
      rw [hG, hT, tridiag3]
      simp
      ring
    rw [g] at this
    simp at this
    linarith
  have f2 : Dl ^ 2 = ρ ^ 2 * ((3 * σ ^ 2 - κ ^ 2) * (e 1 ^ 2 + d 2 ^ 2) + 2 * σ ^ 3 * d 2 +
      (σ ^ 2 - κ ^ 2) ^ 2) := by
    have := congrFun (congrFun hMGG 2) 2
    rw [Matrix.mul_apply, Fin.sum_univ_three] at this
    simp only [Matrix.transpose_apply] at this
    have g0 : (M * (G * G)) 2 2 = ρ * (G * G) 2 2 := by
      rw [Matrix.mul_apply, Fin.sum_univ_three, show M 2 0 = 0 from hm0, show M 2 1 = 0 from hm1, ← hρ]
      ring
    rw [show M 2 0 = 0 from hm0, show M 2 1 = 0 from hm1, ← hρ, g0] at this
    have g : (G * G) 2 2 = (3 * σ ^ 2 - κ ^ 2) * (e 1 ^ 2 + d 2 ^ 2) + 2 * σ ^ 3 * d 2 +
      (σ ^ 2 - κ ^ 2) ^ 2 := by
      rw [hGG, hT, tridiag3]
      simp
      refine Or.inl ?_
      ring
    rw [g] at this
    simp at this
    linarith
  have f3 : d' 2 = σ + ρ * W 2 2 := by
    have := congrFun (congrFun hMW 2) 2
    rw [Matrix.mul_apply, Fin.sum_univ_three, hT', tridiag3] at this
    rw [show M 2 0 = 0 from hm0, show M 2 1 = 0 from hm1, ← hρ] at this
    simp at this
    linarith
  have f4 : e' 1 ^ 2 = ρ ^ 2 - (d' 2 - σ) ^ 2 := by
    have := congrFun (congrFun hMM 2) 2
    rw [Matrix.mul_apply, Fin.sum_univ_three, hT', tridiag3] at this
    simp only [Matrix.transpose_apply] at this
    rw [show M 2 0 = 0 from hm0, show M 2 1 = 0 from hm1, ← hρ] at this
    simp [Matrix.mul_apply, Fin.sum_univ_three] at this
    linarith
  obtain ⟨t1, t2, -, -⟩ := cyc_tau hx
  obtain ⟨n1, n2, n3, n4⟩ := cyc_num hx
  have hs := hx.1
  rw [hsh] at hσ
  simp only [cycN] at n3
  have hwq : Real.sqrt (cycN x) ^ 2 = cycN x := Real.sq_sqrt (by unfold cycN; linarith)
  have hw0 : 0 < Real.sqrt (cycN x) := Real.sqrt_pos.2 (by unfold cycN; linarith)
  have hF1 : (cycF x).1 ^ 2 = cycT x ^ 2 * x.1 ^ 4 * cycN x / (1 - cycT x ^ 2 * x.1 ^ 2) ^ 2 := by
    simp only [cycF]
    rw [div_pow, mul_pow, hwq]; ring
  have hF2 : (cycF x).2 * (cycF x).1 ^ 3 = (x.2 * (1 + cycT x ^ 2 * x.1 ^ 2) - 2 * cycT x) *
      cycT x ^ 2 * x.1 ^ 5 / (1 - cycT x ^ 2 * x.1 ^ 2) ^ 2 := by
    simp only [cycF]
    have : cycT x ≠ 0 := by linarith
    have : 1 - cycT x ^ 2 * x.1 ^ 2 ≠ 0 := by linarith
    field_simp
  have hcz : cycZ (cycF x) = (cycF x).2 * (cycF x).1 ^ 3 / (1 + (cycF x).1 ^ 2) := rfl
  have hcp : cycP (cycF x) = ((cycF x).1 ^ 2 * (1 + (cycF x).1 ^ 2) -
      ((cycF x).2 * (cycF x).1 ^ 3) ^ 2) / (1 + (cycF x).1 ^ 2) ^ 2 := by
    unfold cycP; ring
  rw [hF1, hF2] at hcz hcp
  have hmu : e 1 ^ 2 + d 2 ^ 2 = κ ^ 2 * (x.1 ^ 2 / (1 + x.1 ^ 2)) := by
    rw [hp, hz]
    unfold cycP cycZ
    field_simp
    ring
  rw [hmu, hz] at f1 f2
  have hzz : cycZ x = x.2 * x.1 ^ 3 / (1 + x.1 ^ 2) := rfl
  rw [hzz] at f1 f2
  unfold cycN at hcz hcp
  have hu : 0 < 1 - cycT x ^ 2 * x.1 ^ 2 := by linarith
  obtain ⟨g1, g2⟩ := cyc_scalar hκ hs (by linarith) hu (by linarith) hσ hDl f1 f2 f3 _ _ rfl rfl
  refine ⟨?_, ?_, ?_, ?_, ?_⟩
  · rw [← hT', ← sim]
    have : W * T * Wᵀ * (W * T * Wᵀ) * (W * T * Wᵀ) = W * (T * T * T) * Wᵀ := by
      simp only [Matrix.mul_assoc]
      rw [← Matrix.mul_assoc Wᵀ W, orth, Matrix.one_mul, ← Matrix.mul_assoc Wᵀ W, orth, Matrix.one_mul]
    rw [this, cube, Matrix.mul_smul, Matrix.smul_mul]
  · rw [← hT', ← sim, Matrix.trace_mul_comm, ← Matrix.mul_assoc, orth, Matrix.one_mul, tr]
  · rw [← hT', ← sim]
    have : W * T * Wᵀ * (W * T * Wᵀ) = W * (T * T) * Wᵀ := by
      simp only [Matrix.mul_assoc]
      rw [← Matrix.mul_assoc Wᵀ W, orth, Matrix.one_mul]
    rw [this, Matrix.trace_mul_comm, ← Matrix.mul_assoc, orth, Matrix.one_mul, trsq]
  · rw [hcz]; exact g1
  · rw [f4, hcp]; exact g2

/-! ## The first state -/

/-- Tridiagonalizing a tridiagonal 3×3 matrix changes at most the signs of the off-diagonal entries. -/
theorem symTridiagonal_tri3 {x y z b p : ℝ} (hb : 0 < b) (hp : 0 < p) (a : Arr2 ℝ) (ha : HasShape a 3 3)
    (h00 : a.get 0 0 = x) (h10 : a.get 1 0 = b) (h20 : a.get 2 0 = 0) (h11 : a.get 1 1 = y)
    (h12 : a.get 1 2 = p) (h21 : a.get 2 1 = p) (h22 : a.get 2 2 = z) :
    ∃ t, symTridiagonal a = .ok t ∧ t.diagMatrix.get 0 0 = x ∧
      t.diagMatrix.get 1 1 = y ∧ t.diagMatrix.get 2 2 = z ∧ |t.offDiagonal.get 0| = b ∧
      |t.offDiagonal.get 1| = p := by
  obtain ⟨a1, d0, p1, w, e0, l0, t0⟩ := tridiagStep_real (n := 3) 0 a (Arr1.zeros (3 - 1)) (Arr1.zeros (3 - 1))
    (by omega) ha rfl rfl
  obtain ⟨a2, d1, p2, v, e1, l1, t1⟩ := tridiagStep_real (n := 3) 1 a1 ((Arr1.zeros (3 - 1)).upd 0 d0) p1
    (by omega) t0.shape rfl l0
  refine ⟨⟨a2, ((Arr1.zeros (3 - 1)).upd 0 d0).upd 1 d1⟩, ?_, ?_⟩
  · unfold symTridiagonal
    rw [checkSquare_ok (by rw [ha.1, ha.2])]
    simp only [ok_bind]
    rw [if_neg (by rw [ha.1]; omega), ha.1]
    have : List.range' 0 (3 - 1 - 0) = [0, 1] := rfl
    unfold forRange
    rw [this]
    simp only [loopM]
    rw [e0]
    simp only [ok_bind]
    rw [e1]
    rfl
  · -- the first reflection
    have hw0 : w 0 = 0 := by rw [t0.wdef 0 (by omega), if_neg (by omega)]
    have c1 := t0.col 1 (by omega)
    have c2 := t0.col 2 (by omega)
    have u1 := t0.ok.unit 1 (by omega)
    have u2 := t0.ok.unit 2 (by omega)
    have b11 := t0.block 1 1 (by omega) (by omega) (by omega) (by omega)
    have b12 := t0.block 1 2 (by omega) (by omega) (by omega) (by omega)
    have b21 := t0.block 2 1 (by omega) (by omega) (by omega) (by omega)
    have b22 := t0.block 2 2 (by omega) (by omega) (by omega) (by omega)
    have f00 := t0.frame 0 0 (Or.inr le_rfl)
    have hv0 : v 0 = 0 := by rw [t1.wdef 0 (by omega), if_neg (by omega)]
    have hv1 : v 1 = 0 := by rw [t1.wdef 1 (by omega), if_neg (by omega)]
    have c3 := t1.col 2 (by omega)
    have u3 := t1.ok.unit 2 (by omega)
    have g22 := t1.block 2 2 (by omega) (by omega) (by omega) (by omega)
    have g00 := t1.frame 0 0 (Or.inl (by omega))
    have g11 := t1.frame 1 1 (Or.inr le_rfl)
    have s0 := real_signum_sq d0
    have s1 := real_signum_sq d1
    generalize (NdFloat.signum d0 : ℝ) = q0 at c1 c2 s0
    generalize (NdFloat.signum d1 : ℝ) = q1 at c3 s1
    simp only [hApp, Finset.sum_range_succ, Finset.sum_range_zero, hw0, hv0, hv1, h10, h20, h11, h12, h21,
      h22] at c1 c2 u1 u2 b11 b12 b21 b22 c3 u3 g22
    norm_num at c1 c2 c3
    have key : ∀ {q d c : ℝ}, q * q = 1 → q * c = |d| → |d| = |c| := by
      intro q d c hq h
      have : |q| = 1 := by
        rcases mul_self_eq_one_iff.1 hq with rfl | rfl <;> simp
      rw [← abs_abs d, ← h, abs_mul, this, one_mul]
    have hv2 : v 2 * (1 - v 2 * v 2) = 0 := by linarith
    have hq0 : q0 ≠ 0 := fun h => by rw [h] at s0; norm_num at s0
    have hw12 : w 1 * w 2 = 0 := by
      rcases c2 with c2 | c2 | c2 | c2
      · exact absurd c2 hq0
      · rw [c2, mul_zero]
      · rw [c2, zero_mul]
      · exact absurd c2 hb.ne'
    have e3 : |d1| = |a1.get 2 1| := by
      rw [key s1 c3]
      rcases mul_eq_zero.1 hv2 with h | h
      · rw [h]; norm_num
      · have : v 2 * v 2 = 1 := by linarith
        rw [show a1.get 2 1 - 2 * v 2 * (v 2 * a1.get 2 1) = a1.get 2 1 * (1 - 2 * (v 2 * v 2)) by ring, this,
          abs_mul]
        norm_num
    have e22 : a2.get 2 2 = a1.get 2 2 := by
      rcases mul_eq_zero.1 hv2 with h | h
      · rw [g22, h]; ring
      · have : v 2 * v 2 = 1 := by linarith
        rw [g22]
        linear_combination (4 * a1.get 2 2 * v 2 * v 2) * this
    simp only [Arr1.upd_get]
    norm_num
    rw [g00, f00, g11, e3, e22, key s0 c1, b11, b21, b22, h00]
    refine ⟨rfl, ?_⟩
    have abs_eq : ∀ {c c' : ℝ}, 0 < c → (c' = c ∨ c' = -c) → |c'| = c := by
      rintro c c' hc (rfl | rfl)
      · exact abs_of_pos hc
      · rw [abs_neg, abs_of_pos hc]
    have tail : ∀ {m : ℝ}, m * (1 - m * m) = 0 → m = 0 ∨ m * m = 1 := by
      intro m hm
      rcases mul_eq_zero.1 hm with h | h
      · exact Or.inl h
      · right; linarith
    rcases mul_eq_zero.1 hw12 with h | h
    · rw [h] at u2 ⊢
      rcases tail (m := w 2) (by linarith) with h2 | h2
      · rw [h2]
        exact ⟨by ring, by ring, abs_eq hb (Or.inl (by ring)), abs_eq hp (Or.inl (by ring))⟩
      · exact ⟨by ring, by linear_combination (4 * z * w 2 * w 2) * h2, abs_eq hb (Or.inl (by ring)),
          abs_eq hp (Or.inr (by linear_combination (-2 * p) * h2))⟩
    · rw [h] at u1 ⊢
      rcases tail (m := w 1) (by linarith) with h2 | h2
      · rw [h2]
        exact ⟨by ring, by ring, abs_eq hb (Or.inl (by ring)), abs_eq hp (Or.inl (by ring))⟩
      · exact ⟨by linear_combination (4 * y * w 1 * w 1) * h2, by ring,
          abs_eq hb (Or.inr (by linear_combination (-2 * b) * h2)),
          abs_eq hp (Or.inr (by linear_combination (-2 * p) * h2))⟩


/-- What is in the arrays when the main loop is entered. -/
theorem symmetricEig_start {n : Nat} (a : Arr2 ℝ) {eps : ℝ} (heps : 0 ≤ eps) (ha : HasShape a n n)
    (hn : 2 ≤ n) (hs : (toMat n n a).IsSymm) :
    ∃ t off q s e, symTridiagonal (a.scaleDown a.amax) = .ok t ∧
      DelimSpec t.intoDiagonals.1 t.intoDiagonals.2 eps (n - 1) off s e ∧
      EigShape n eps ⟨t.intoDiagonals.1, off, q, s, e⟩ ∧
      EigReal n (toMat n n (a.scaleDown a.amax)) eps ⟨t.intoDiagonals.1, off, q, s, e⟩ ∧
      ∀ fuel, symmetricEig fuel a true eps = (eigLoop eps fuel ⟨t.intoDiagonals.1, off, q, s, e⟩ >>=
        fun st => .ok (st.diag.map fun x => x * a.amax, st.q)) := by
  obtain ⟨s1, s2, s3, s4⟩ := scaleDown_real a ha (by omega) (by omega)
  have hsym : (toMat n n (a.scaleDown a.amax)).IsSymm := by
    rw [s4, Matrix.IsSymm, Matrix.transpose_smul, hs.eq]
  have hsq : a.nr = a.nc := by rw [ha.1, ha.2]
  obtain ⟨t, ht, htri⟩ := symTridiagonal_real (a.scaleDown a.amax) s1 (by omega) hsym
  obtain ⟨Q, hQ, sQ, oQ, eQ⟩ := htri.final (by omega)
  have e1 : tridiag n t.intoDiagonals.1.get (eff t.intoDiagonals.2 (n - 1)) =
      tridiag n (fun i => t.diagMatrix.get i i) (fun i => |t.offDiagonal.get i|) := by
    ext i j
    simp only [tridiag, Matrix.of_apply, eff]
    have := i.2
    have := j.2
    split_ifs <;> first | omega | rfl
  have hap : EigApx n (toMat n n (a.scaleDown a.amax)) eps t.intoDiagonals.1.get
      (eff t.intoDiagonals.2 (n - 1)) (toMat n n Q) (Equiv.refl _) := by
    have e2 : ∀ X : Matrix (Fin n) (Fin n) ℝ,
        X.submatrix (Equiv.refl (Fin n)) (Equiv.refl (Fin n)) = X := fun X => rfl
    refine ⟨oQ, ?_, ?_, Swaps.refl _ _ _, ?_⟩
    · rw [e1, e2, eQ, sub_self, frob_zero]
      have := frob_nonneg (toMat n n (a.scaleDown a.amax))
      positivity
    · rw [e1, ← eQ, frob_mul_orth (by rw [Matrix.transpose_transpose]; exact oQ), frob_orth_mul oQ]
    · rw [e1, ← eQ, Matrix.trace_mul_comm, ← Matrix.mul_assoc, oQ, Matrix.one_mul]
  have hcase : ∀ fuel, ∃ off s e, delimitSubproblem t.intoDiagonals.1 t.intoDiagonals.2 (n - 1) eps =
      .ok (off, s, e) ∧ DelimSpec t.intoDiagonals.1 t.intoDiagonals.2 eps (n - 1) off s e ∧
      EigShape n eps ⟨t.intoDiagonals.1, off, some Q, s, e⟩ ∧
      symmetricEig fuel a true eps = (eigLoop eps fuel ⟨t.intoDiagonals.1, off, some Q, s, e⟩ >>=
        fun st => .ok (st.diag.map fun x => x * a.amax, st.q)) := by
    intro fuel
    obtain ⟨t', ht', hsh, q, hqs, hev, hgen, -, h2⟩ := symmetricEig_cases fuel a true eps hsq
      (by rw [ha.1]; omega)
    rw [ht, Except.ok.injEq] at ht'
    subst ht'
    rw [ha.1] at hsh hqs h2
    obtain ⟨x, rfl⟩ := Option.isSome_iff_exists.1 hev
    have := hgen x rfl
    rw [hQ, Except.ok.injEq] at this
    subst this
    exact h2 (by omega)
  obtain ⟨off, s, e, hd, ds, hei, -⟩ := hcase 0
  refine ⟨t, off, some Q, s, e, ht, ds, hei, ?_, ?_⟩
  · exact DelimSpec.real (mid := ⟨t.intoDiagonals.1, t.intoDiagonals.2, some Q, s, n - 1⟩) heps
      ⟨by simp only; omega, Q, Equiv.refl _, rfl, sQ, hap, fun _ _ => rfl, Or.inl fun _ _ => rfl⟩ rfl rfl ds
  · intro fuel
    obtain ⟨off', s', e', hd', -, -, heq⟩ := hcase fuel
    rw [hd, Except.ok.injEq, Prod.mk.injEq, Prod.mk.injEq] at hd'
    obtain ⟨rfl, rfl, rfl⟩ := hd'
    exact heq

/-! ## The loop -/

/-- A state from which the loop does not return. -/
structure CycState (A0 : Matrix (Fin 3) (Fin 3) ℝ) (eps κ : ℝ) (x : ℝ × ℝ) (st : EigState ℝ) : Prop where
  shape : EigShape 3 eps st
  real : EigReal 3 A0 eps st
  start : st.start = 0
  «end» : st.end = 2
  inv : CycInv κ x st.diag.get (eff st.off 2)

/-- `delimit_subproblem` finds nothing to split off. -/
theorem CycInv.delim {eps κ : ℝ} {x : ℝ × ℝ} {diag off off' : Arr1 ℝ} {s n : Nat}
    (h : CycInv κ x diag.get (eff off 2)) (hκ : 0 < κ) (hx : x ∈ cycD) (heps : 0 ≤ eps)
    (heps1 : eps ≤ 1 / 100) (ds : DelimSpec diag off eps 2 off' s n) : off' = off ∧ s = 0 ∧ n = 2 := by
  obtain ⟨b1, b0⟩ := h.big hκ hx heps1
  rw [eff_of_lt _ (by omega)] at b1 b0
  have hn : n = 2 := by
    by_contra hne
    have hle := ds.le
    have := ds.dropped 1 (by omega) (by omega)
    rw [bigOff_real.2 b1] at this
    exact absurd this (by simp)
  have hs : s = 0 := by
    by_contra hne
    have hlt := ds.lt (by omega)
    have h1 := ds.small hne
    rw [show s = 1 by omega] at h1
    have := (smallOff_real heps).1 h1
    exact absurd this (not_le.2 b0)
  refine ⟨?_, hs, hn⟩
  rw [ds.off_eq, if_pos hs]

theorem CycState.step {A0 : Matrix (Fin 3) (Fin 3) ℝ} {eps κ : ℝ} {x : ℝ × ℝ} {st : EigState ℝ}
    (h : CycState A0 eps κ x st) (hκ : 0 < κ) (hx : x ∈ cycD) (hx' : cycF x ∈ cycD) (heps : 0 ≤ eps)
    (heps1 : eps ≤ 1 / 100) : Succeeds (eigStep eps st) (CycState A0 eps κ (cycF x)) := by
  obtain ⟨hsh, hr, hs0, he2, hi⟩ := h
  refine wp_conseq (wp_eigStep hsh (by omega) (fun mid => EigMid 3 A0 eps mid ∧ mid.end = 2 ∧
    CycInv κ (cycF x) mid.diag.get (eff mid.off 2)) (by omega) ?_) ?_
  · intro r e hs _ hre hl
    obtain ⟨W, w1, -, -⟩ := hr.qr hsh hs _ r hl
    rw [hs0, he2] at w1
    have hb0 := hr.block 0 (by omega) (by omega)
    have hb1 := hr.block 1 (by omega) (by omega)
    have hi' : CycInv κ (cycF x) r.diag.get (eff r.off 2) :=
      hi.step hκ hx w1 (by rw [eff_of_lt _ (by omega)]) (by rw [eff_of_lt _ (by omega)]; exact hb0)
        (by rw [eff_of_lt _ (by omega)]; exact hb1)
    refine ⟨hr.sweep heps hsh hs _ _ r e (by simpa using hre) hl, ?_, hi'⟩
    rcases hre with ⟨-, hle⟩ | rfl
    · exfalso
      have b1 := (hi'.big hκ hx' heps1).1
      rw [eff_of_lt _ (by omega)] at b1
      simp only [he2, real_le, real_abs, decide_eq_true_eq] at hle
      rw [add_comm] at b1
      exact absurd hle (not_le.2 b1)
    · exact he2
  · rintro st' ⟨h1, mid, ⟨hm, hme, hmi⟩, -, -, hd, hq, ds⟩
    have hreal := DelimSpec.real heps hm hd hq ds
    rw [hme] at ds
    obtain ⟨e1, e2, e3⟩ := hmi.delim hκ hx' heps heps1 ds
    exact ⟨h1, hreal, e2, e3, by rw [hd, e1]; exact hmi⟩

/-- The loop never returns. -/
theorem CycState.loop {A0 : Matrix (Fin 3) (Fin 3) ℝ} {eps κ : ℝ} (hκ : 0 < κ) (heps : 0 ≤ eps)
    (heps1 : eps ≤ 1 / 100) (fuel : Nat) {x : ℝ × ℝ} (hx : ∀ k, cycF^[k] x ∈ cycD) {st : EigState ℝ}
    (h : CycState A0 eps κ x st) : eigLoop eps fuel st = .error .fuel := by
  have hne : st.end ≠ st.start := by rw [h.start, h.end]; omega
  induction fuel generalizing x st with
  | zero => unfold eigLoop; rw [if_neg hne]
  | succ k ih =>
    unfold eigLoop
    rw [if_neg hne]
    obtain ⟨st', e, h'⟩ := succeeds_iff.1 (h.step hκ (hx 0) (hx 1) heps heps1)
    rw [e, ok_bind]
    exact ih (fun k => by have := hx (k + 1); rwa [Function.iterate_succ_apply] at this) h'
      (by rw [h'.start, h'.end]; omega)

end LinfaLinalg
