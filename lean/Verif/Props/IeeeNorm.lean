import Verif.Props.IeeeChol
import Verif.Props.NaN
import Verif.Props.Overflow

/-! # C98: norms with overflow and underflow -/

namespace LinfaLinalg

open Flt

local notation "𝔽" => Flt Rounding.binary64

variable {R : Rounding} {u η : ℝ}

theorem near_avg (h0 : 0 ≤ u) (h1 : u < 1) {m : Nat} {a b s t : ℝ} (ha : 0 ≤ a) (hb : 0 ≤ b) (hs : Near u m s)
    (ht : Near u m t) : ∃ w, Near u m w ∧ a * s + b * t = (a + b) * w := by
  rcases eq_or_lt_of_le (add_nonneg ha hb) with h | h
  · have e1 : a = 0 := by linarith
    have e2 : b = 0 := by linarith
    exact ⟨1, near_one h0 h1 _, by rw [e1, e2]; ring⟩
  · refine ⟨(a * s + b * t) / (a + b), ⟨?_, ?_⟩, by field_simp⟩
    · rw [le_div_iff₀ h]
      have := mul_le_mul_of_nonneg_left hs.1 ha
      have := mul_le_mul_of_nonneg_left ht.1 hb
      linarith
    · rw [div_mul_eq_mul_div, div_le_one h]
      have := mul_le_mul_of_nonneg_left hs.2 ha
      have := mul_le_mul_of_nonneg_left ht.2 hb
      linarith

namespace Flt

theorem NotNeg.rv {x : Flt R} (h : NotNeg x) : 0 ≤ x.rv := by
  rcases h with rfl | rfl | ⟨s, m, rfl, h⟩
  · exact le_rfl
  · exact le_rfl
  · exact h

theorem notNeg_abs {x : Flt R} (h : Proper x) : NotNeg (NdFloat.abs x) := by
  change NotNeg (Flt.abs x)
  cases x with
  | nan => exact Or.inl rfl
  | inf s => exact Or.inr (Or.inl rfl)
  | fin s m => exact Or.inr (Or.inr ⟨_, _, rfl, by simpa [val, sgn] using h s m rfl⟩)

theorem abs_rv {x : Flt R} (h : Proper x) : (NdFloat.abs x).rv = |x.rv| := by
  change (Flt.abs x).rv = _
  cases x with
  | nan => simp [Flt.abs, Flt.rv]
  | inf s => simp [Flt.abs, Flt.rv]
  | fin s m =>
    have := h s m rfl
    cases s <;> simp [Flt.abs, Flt.rv, val, sgn, abs_of_nonneg this]

theorem abs_fin {x : Flt R} : IsFin (NdFloat.abs x) ↔ IsFin x := by
  change IsFin (Flt.abs x) ↔ _
  cases x <;> simp [Flt.abs, IsFin]

end Flt

/-- Adding up numbers that are not negative. -/
theorem flt_foldl_add (hR : R.Accurate u η) (l : List (Flt R)) (s : Flt R) (hs : NotNeg s) (hl : ∀ x ∈ l, NotNeg x)
    (h : IsFin (l.foldl (· + ·) s)) : IsFin s ∧ (∀ x ∈ l, IsFin x) ∧ ∃ (w E : ℝ), Near u l.length w ∧
      |E| ≤ l.length * η * ((1 - u) ^ l.length)⁻¹ ∧ (l.foldl (· + ·) s).rv = (s.rv + (l.map Flt.rv).sum) * w + E := by
  have h0 := hR.u_nonneg
  have h1 := hR.u_lt_one
  have hη := hR.η_nonneg
  induction l generalizing s with
  | nil => exact ⟨h, by simp, 1, 0, near_one h0 h1 _, by simp, by simp⟩
  | cons x l ih =>
    rw [List.foldl_cons] at h ⊢
    obtain ⟨g1, g2, w, E, hw, hE, e⟩ := ih (s + x) (notNeg_add hs (hl x (by simp))) (fun y hy => hl y (by simp [hy])) h
    obtain ⟨g3, g4, t, e1, ht, he1, et⟩ := add_err hR g1
    have hS : 0 ≤ (l.map Flt.rv).sum := List.sum_nonneg (by
      intro y hy
      obtain ⟨z, hz, rfl⟩ := List.mem_map.1 hy
      exact (hl z (by simp [hz])).rv)
    obtain ⟨t', ht', e2⟩ := near_avg h0 h1 (add_nonneg hs.rv (hl x (by simp)).rv) hS ht (near_one h0 h1 1)
    refine ⟨g3, ?_, t' * w, e1 * w + E, ?_, ?_, ?_⟩
    · intro y hy
      rcases List.mem_cons.1 hy with rfl | hy
      · exact g4
      · exact g2 y hy
    · rw [List.length_cons]
      exact (ht'.mul h0 h1 hw).mono h0 h1 (by omega)
    · rw [List.length_cons]
      have hw0 := hw.pos h0 h1
      have hK := inv_pow_mono h0 h1 (Nat.le_succ l.length)
      set K := ((1 - u) ^ l.length)⁻¹
      set K' := ((1 - u) ^ (l.length + 1))⁻¹
      have c1 : |e1 * w| ≤ η * K' := by
        rw [abs_mul, abs_of_pos hw0]
        exact mul_le_mul he1 ((hw.le_inv h0 h1).trans hK) hw0.le hη
      have c2 : |E| ≤ l.length * η * K' := hE.trans (mul_le_mul_of_nonneg_left hK (by positivity))
      refine (abs_add_le _ _).trans ?_
      push_cast
      linarith
    · rw [e, et, List.map_cons, List.sum_cons]
      have : ((s.rv + x.rv) * t + e1 + (l.map Flt.rv).sum) * w + E =
          ((s.rv + x.rv) * t + (l.map Flt.rv).sum * 1) * w + (e1 * w + E) := by ring
      rw [this, e2]
      ring

/-- C98, `norm_l1`: a finite result means finite entries, and it is accurate. -/
theorem C98_norm_l1 (hR : R.Accurate u η) (l : List (Flt R)) (hp : ∀ x ∈ l, Proper x) (hn : l.length * u < 1)
    (h : IsFin (normL1 l)) : (∀ x ∈ l, IsFin x) ∧
      |(normL1 l).rv - (l.map fun x => |x.rv|).sum| ≤
        gam u l.length * (l.map fun x => |x.rv|).sum + (1 + gam u l.length) * l.length * η := by
  have h0 := hR.u_nonneg
  have h1 := hR.u_lt_one
  have hη := hR.η_nonneg
  unfold normL1 at h ⊢
  obtain ⟨-, g1, w, E, hw, hE, e⟩ := flt_foldl_add hR (l.map NdFloat.abs) 0 (Or.inr (Or.inr ⟨_, _, rfl, by simp [val]⟩))
    (by intro x hx; obtain ⟨y, hy, rfl⟩ := List.mem_map.1 hx; exact notNeg_abs (hp y hy)) h
  refine ⟨fun x hx => abs_fin.1 (g1 _ (List.mem_map.2 ⟨x, hx, rfl⟩)), ?_⟩
  have e1 : ((l.map NdFloat.abs).map Flt.rv) = l.map fun x => |x.rv| := by
    rw [List.map_map]
    exact List.map_congr_left fun x hx => abs_rv (hp x hx)
  rw [e, e1, zero_rv, zero_add]
  rw [List.length_map] at hw hE
  set S := (l.map fun x => |x.rv|).sum with hS
  have hS0 : 0 ≤ S := List.sum_nonneg (by
    intro y hy; obtain ⟨z, -, rfl⟩ := List.mem_map.1 hy; exact abs_nonneg _)
  have e2 : S * w + E - S = (w - 1) * S + E := by ring
  rw [e2]
  refine (abs_add_le _ _).trans (add_le_add ?_ ?_)
  · rw [abs_mul, abs_of_nonneg hS0]
    exact mul_le_mul_of_nonneg_right (hw.abs_sub_one h0 h1 hn) hS0
  · refine hE.trans ?_
    calc _ ≤ l.length * η * (1 + gam u l.length) := mul_le_mul_of_nonneg_left (inv_pow_le_gam h0 hn) (by positivity)
      _ = _ := by ring

theorem flt_squares (hR : R.Accurate u η) (l : List (Flt R)) (hp : ∀ x ∈ l, Proper x)
    (h : ∀ x ∈ l, IsFin (x * x)) : (∀ x ∈ l, IsFin x) ∧ ∃ (w E : ℝ), Near u 1 w ∧ |E| ≤ l.length * η ∧
      (l.map fun x => (x * x).rv).sum = (l.map fun x => x.rv ^ 2).sum * w + E := by
  have h0 := hR.u_nonneg
  have h1 := hR.u_lt_one
  induction l with
  | nil => exact ⟨by simp, 1, 0, near_one h0 h1 _, by simp, by simp⟩
  | cons x l ih =>
    obtain ⟨g1, w, E, hw, hE, e⟩ := ih (fun y hy => hp y (by simp [hy])) (fun y hy => h y (by simp [hy]))
    have px := hp x (by simp)
    obtain ⟨g2, -, t, e1, ht, he1, et⟩ := mul_err hR px px (h x (by simp))
    have hS : 0 ≤ (l.map fun x => x.rv ^ 2).sum := List.sum_nonneg (by
      intro y hy; obtain ⟨z, -, rfl⟩ := List.mem_map.1 hy; exact sq_nonneg _)
    obtain ⟨t', ht', e2⟩ := near_avg h0 h1 (sq_nonneg x.rv) hS ht hw
    refine ⟨?_, t', e1 + E, ht', ?_, ?_⟩
    · intro y hy
      rcases List.mem_cons.1 hy with rfl | hy
      · exact g2
      · exact g1 y hy
    · refine (abs_add_le _ _).trans ?_
      rw [List.length_cons]
      push_cast
      linarith
    · simp only [List.map_cons, List.sum_cons]
      rw [e, et, ← e2]
      ring

/-- C98, `norm_l2`: a finite result means finite entries. It is accurate up to an absolute error of about `√(2 n η)`, which
in double precision is `2⁻⁵³⁷ √n`. -/
theorem C98_norm_l2 (hR : R.Accurate u η) (l : List (Flt R)) (hp : ∀ x ∈ l, Proper x)
    (hn : ((l.length + 2 : Nat) : ℝ) * u < 1) (h : IsFin (normL2 l)) : (∀ x ∈ l, IsFin x) ∧
      |(normL2 l).rv - Real.sqrt (l.map fun x => x.rv ^ 2).sum| ≤
        gam u (l.length + 2) * Real.sqrt (l.map fun x => x.rv ^ 2).sum +
          (1 + gam u (l.length + 2)) * Real.sqrt (2 * l.length * η) + η := by
  have h0 := hR.u_nonneg
  have h1 := hR.u_lt_one
  have hη := hR.η_nonneg
  unfold normL2 at h ⊢
  have hnn : ∀ x ∈ l.map fun x : Flt R => x * x, NotNeg x := by
    intro x hx; obtain ⟨y, hy, rfl⟩ := List.mem_map.1 hx; exact notNeg_sq _
  have hz : NotNeg (0 : Flt R) := Or.inr (Or.inr ⟨_, _, rfl, by simp [val]⟩)
  have hnf : ∀ (l : List (Flt R)) (s : Flt R), Proper s → Proper (l.foldl (· + ·) s) := by
    intro l
    induction l with
    | nil => exact fun s hs => hs
    | cons x l ih => exact fun s _ => ih _ (proper_add _ _)
  obtain ⟨g0, hS0, t, e1, ht, he1, et⟩ := sqrt_err hR (hnf _ (0 : Flt R) (proper_fin_zero _)) h
  obtain ⟨-, g1, w, E, hw, hE, e⟩ := flt_foldl_add hR _ 0 hz hnn g0
  rw [List.length_map] at hw hE
  obtain ⟨g2, w', E', hw', hE', e'⟩ := flt_squares hR l hp (fun x hx => g1 _ (List.mem_map.2 ⟨x, hx, rfl⟩))
  refine ⟨g2, ?_⟩
  rw [zero_rv, zero_add, List.map_map] at e
  have e2 : (l.map (Flt.rv ∘ fun x => x * x)).sum = (l.map fun x => (x * x).rv).sum := rfl
  rw [e2, e'] at e
  rw [et]
  set S := ((l.map fun x : Flt R => x * x).foldl (· + ·) 0).rv with hS
  set X := (l.map fun x => x.rv ^ 2).sum with hX
  have hX0 : 0 ≤ X := List.sum_nonneg (by
    intro y hy; obtain ⟨z, -, rfl⟩ := List.mem_map.1 hy; exact sq_nonneg _)
  have hw0 := hw.pos h0 h1
  have hw0' := hw'.pos h0 h1
  have ht0 := ht.pos h0 h1
  set F := E' * w + E with hF
  have eS : S = X * (w' * w) + F := by rw [e]; ring
  set K := ((1 - u) ^ l.length)⁻¹ with hK
  have hK0 : 0 < K := inv_pos.2 (pow_pos (by linarith) _)
  have hFb : |F| ≤ 2 * l.length * η * K := by
    refine (abs_add_le _ _).trans ?_
    have : |E' * w| ≤ l.length * η * K := by
      rw [abs_mul, abs_of_pos hw0]
      exact mul_le_mul hE' (hw.le_inv h0 h1) hw0.le (by positivity)
    linarith
  have hT0 : 0 ≤ X * (w' * w) := by positivity
  -- the square root is Hölder continuous
  have hsq : |Real.sqrt S - Real.sqrt (X * (w' * w))| ≤ Real.sqrt |F| := by
    have a1 : ∀ a b : ℝ, 0 ≤ a → 0 ≤ b → a ≤ b → Real.sqrt b ≤ Real.sqrt a + Real.sqrt |b - a| := by
      intro a b ha hb hab
      rw [abs_of_nonneg (sub_nonneg.2 hab), Real.sqrt_le_left (by positivity)]
      have s1 := Real.sq_sqrt ha
      have s2 := Real.sq_sqrt (sub_nonneg.2 hab)
      have s3 := mul_nonneg (Real.sqrt_nonneg a) (Real.sqrt_nonneg (b - a))
      nlinarith
    have eF : S - X * (w' * w) = F := by rw [eS]; ring
    rw [abs_le]
    rcases le_total S (X * (w' * w)) with hle | hle
    · have := a1 _ _ hS0 hT0 hle
      rw [abs_sub_comm, eF] at this
      have := Real.sqrt_le_sqrt hle
      constructor <;> linarith [Real.sqrt_nonneg |F|]
    · have := a1 _ _ hT0 hS0 hle
      rw [eF] at this
      have := Real.sqrt_le_sqrt hle
      constructor <;> linarith [Real.sqrt_nonneg |F|]
  have hN : Near u (l.length + 2) (Real.sqrt (w' * w) * t) :=
    (((hw'.mul h0 h1 hw).sqrt h0 h1).mul h0 h1 ht).mono h0 h1 (by omega)
  have e3 : Real.sqrt S * t + e1 - Real.sqrt X = (Real.sqrt (w' * w) * t - 1) * Real.sqrt X +
      (Real.sqrt S - Real.sqrt (X * (w' * w))) * t + e1 := by
    rw [Real.sqrt_mul hX0]
    ring
  rw [e3]
  refine (abs_add_three _ _ _).trans (add_le_add (add_le_add ?_ ?_) he1)
  · rw [abs_mul, abs_of_nonneg (Real.sqrt_nonneg X)]
    exact mul_le_mul_of_nonneg_right (hN.abs_sub_one h0 h1 hn) (Real.sqrt_nonneg X)
  · rw [abs_mul, abs_of_pos ht0]
    have hK1 : 1 ≤ K := by
      have := inv_pow_mono h0 h1 (Nat.zero_le l.length)
      rwa [pow_zero, inv_one] at this
    have c1 : Real.sqrt |F| ≤ Real.sqrt (2 * l.length * η) * K := by
      refine (Real.sqrt_le_sqrt hFb).trans ?_
      rw [Real.sqrt_mul (by positivity)]
      refine mul_le_mul_of_nonneg_left ?_ (Real.sqrt_nonneg _)
      rw [Real.sqrt_le_left hK0.le]
      nlinarith
    have c2 : K * t ≤ 1 + gam u (l.length + 2) := by
      refine le_trans ?_ (inv_pow_le_gam h0 hn)
      calc K * t ≤ K * ((1 - u) ^ 1)⁻¹ := mul_le_mul_of_nonneg_left (ht.le_inv h0 h1) hK0.le
        _ = ((1 - u) ^ (l.length + 1))⁻¹ := by rw [hK, pow_one, pow_succ, mul_inv]
        _ ≤ _ := inv_pow_mono h0 h1 (by omega)
    calc _ ≤ Real.sqrt (2 * l.length * η) * K * t := mul_le_mul_of_nonneg_right (hsq.trans c1) ht0.le
      _ = Real.sqrt (2 * l.length * η) * (K * t) := by ring
      _ ≤ Real.sqrt (2 * l.length * η) * (1 + gam u (l.length + 2)) := mul_le_mul_of_nonneg_left c2 (Real.sqrt_nonneg _)
      _ = _ := by ring

theorem b64Round_below {x : ℝ} (h0 : 0 ≤ x) (h1 : x < 1 / 2 * (2 : ℝ) ^ (-1074 : ℤ)) : b64Round x = some 0 := by
  rcases h0.eq_or_lt with rfl | h0
  · unfold b64Round
    simp [roundEven]
  have hg : (0 : ℝ) < 2 ^ (-1074 : ℤ) := by positivity
  have hlog : Int.log 2 x < -1073 := by
    rw [← Int.lt_zpow_iff_log_lt (by norm_num) h0, show (((2 : ℕ) : ℝ)) = 2 by norm_num]
    rw [show (-1073 : ℤ) = -1074 + 1 by norm_num, zpow_add₀ (by norm_num)]
    linarith
  have he : b64Exp x = -1074 := max_eq_right (by omega)
  have hr : roundEven (x / 2 ^ (-1074 : ℤ)) = 0 := by
    refine roundEven_near (Or.inl ?_)
    rw [Int.cast_zero, sub_zero, abs_of_pos (by positivity), div_lt_iff₀ hg]
    exact h1
  unfold b64Round
  dsimp only
  rw [he, hr]
  simp

/-- C98, underflow: in double precision `norm_l2` of numbers of magnitude at most `2⁻⁵³⁸` is zero, whether they are zero
or not. -/
theorem C98_norm_l2_underflow (P : DotPlans) (l : List (Flt { Rounding.binary64 with plans := P }))
    (h : ∀ x ∈ l, ∃ s m, x = .fin s m ∧ 0 ≤ m ∧ m ≤ (2 : ℝ) ^ (-538 : ℤ)) : normL2 l = 0 := by
  have hz : ∀ x ∈ l, x * x = 0 := by
    intro x hx
    obtain ⟨s, m, rfl, h0, h1⟩ := h x hx
    have hm : b64Round (m * m) = some 0 := by
      refine b64Round_below (mul_self_nonneg m) (lt_of_le_of_lt (mul_self_le_mul_self h0 h1) ?_)
      rw [← zpow_add₀ (by norm_num), show (1 / 2 : ℝ) = 2 ^ (-1 : ℤ) by norm_num, ← zpow_add₀ (by norm_num)]
      exact zpow_lt_zpow_right₀ (by norm_num) (by norm_num)
    show Flt.mul _ _ = Flt.fin false 0
    simp [Flt.mul, Flt.round, Rounding.binary64, hm]
  have h0 : (0 : Flt { Rounding.binary64 with plans := P }) + 0 = 0 := by
    show Flt.add (.fin false 0) (.fin false 0) = .fin false 0
    simp [Flt.add, Flt.ofReal, val]
  have hs : (l.map fun x => x * x).foldl (· + ·) 0 = (0 : Flt { Rounding.binary64 with plans := P }) := by
    clear h
    induction l with
    | nil => rfl
    | cons x l ih =>
      rw [List.map_cons, List.foldl_cons, hz x (by simp), h0]
      exact ih fun y hy => hz y (by simp [hy])
  unfold normL2
  rw [hs]
  show Flt.sqrt (.fin false 0) = .fin false 0
  simp [Flt.sqrt]

/-- C98, overflow: in double precision `norm_l2` is infinite as soon as one entry has a magnitude of at least `2⁵¹²` and
none is NaN. -/
theorem C98_norm_l2_overflow (P : DotPlans) (l : List (Flt { Rounding.binary64 with plans := P }))
    (hn : ∀ x ∈ l, x ≠ .nan) (h : ∃ x ∈ l, Large x) : normL2 l = .inf false := by
  have key : ∀ (l : List (Flt { Rounding.binary64 with plans := P })) (s : Flt { Rounding.binary64 with plans := P }),
      Good s → (∀ x ∈ l, x ≠ .nan) → (s = .inf false ∨ ∃ x ∈ l, Large x) →
      (l.map fun x => x * x).foldl (· + ·) s = .inf false := by
    intro l
    induction l with
    | nil =>
      intro s _ _ h
      rcases h with h | ⟨x, hx, -⟩
      · exact h
      · cases hx
    | cons x l ih =>
      intro s hs hl h
      have hx : Good (x * x) := good_sq (hl x (by simp))
      rw [List.map_cons, List.foldl_cons]
      refine ih _ (good_add hs hx) (fun y hy => hl y (by simp [hy])) ?_
      rcases h with rfl | ⟨y, hy, hL⟩
      · exact Or.inl (inf_add_good hx)
      · rcases List.mem_cons.1 hy with rfl | hy
        · refine Or.inl ?_
          have : y * y = .inf false := hL.sqInf.mul
          rw [this]
          exact good_add_inf hs
        · exact Or.inr ⟨y, hy, hL⟩
  unfold normL2
  rw [key l 0 (by show Good (.fin false 0); simp [Good, val]) hn (Or.inr h)]
  rfl

/-- C98, `norm_max`: exact for finite entries. -/
theorem C98_norm_max (l : List (Flt R)) (hp : ∀ x ∈ l, Proper x) (hf : ∀ x ∈ l, IsFin x) :
    IsFin (normMax l) ∧ (normMax l).rv = (l.map fun x => |x.rv|).foldr Max.max 0 := by
  have hmax : ∀ a b : Flt R, IsFin a → IsFin b → IsFin (NdFloat.max a b) ∧ (NdFloat.max a b).rv = Max.max a.rv b.rv := by
    intro a b ha hb
    change IsFin (Flt.max a b) ∧ (Flt.max a b).rv = _
    cases a with
    | nan => obtain ⟨_, _, h⟩ := ha; exact (nomatch h)
    | inf s => obtain ⟨_, _, h⟩ := ha; exact (nomatch h)
    | fin s m =>
      cases b with
      | nan => obtain ⟨_, _, h⟩ := hb; exact (nomatch h)
      | inf s => obtain ⟨_, _, h⟩ := hb; exact (nomatch h)
      | fin t n =>
        rcases lt_or_ge (val s m) (val t n) with h | h
        · simp [Flt.max, Flt.lt, Flt.rv, IsFin, h, h.le]
        · simp [Flt.max, Flt.lt, Flt.rv, IsFin, not_lt.2 h, h]
  have key : ∀ (l : List (Flt R)) (s : Flt R), (∀ x ∈ l, Proper x) → (∀ x ∈ l, IsFin x) → IsFin s → 0 ≤ s.rv →
      IsFin (l.foldl (fun f val => NdFloat.max (NdFloat.abs val) f) s) ∧
      (l.foldl (fun f val => NdFloat.max (NdFloat.abs val) f) s).rv = Max.max s.rv ((l.map fun x => |x.rv|).foldr Max.max 0) := by
    intro l
    induction l with
    | nil => exact fun s _ _ hs h => ⟨hs, (max_eq_left h).symm⟩
    | cons x l ih =>
      intro s hp hf hs h
      obtain ⟨g1, g2⟩ := hmax (NdFloat.abs x) s (abs_fin.2 (hf x (by simp))) hs
      obtain ⟨g3, g4⟩ := ih _ (fun y hy => hp y (by simp [hy])) (fun y hy => hf y (by simp [hy])) g1
        (by rw [g2]; exact le_max_of_le_right h)
      refine ⟨g3, ?_⟩
      rw [List.foldl_cons, g4, g2, abs_rv (hp x (by simp)), List.map_cons, List.foldr_cons, _root_.max_comm |x.rv|, _root_.max_assoc]
  obtain ⟨h1, h2⟩ := key l 0 hp hf ⟨_, _, rfl⟩ (by rw [zero_rv])
  refine ⟨h1, ?_⟩
  unfold normMax
  rw [h2, zero_rv, max_eq_right]
  induction l with
  | nil => exact le_rfl
  | cons x l ih => exact le_max_of_le_left (abs_nonneg _)

/-- The hypotheses of `C98_norm_l1`, `C98_norm_l2` and `C98_norm_max` are met by the doubles `-3` and `4`, the norms of
which are `7`, `5` and `4`. -/
example : ∃ l : List 𝔽, l = [.fin true 3, .fin false 4] ∧ (∀ x ∈ l, Proper x ∧ IsFin x) ∧
    ((l.length + 2 : Nat) : ℝ) * 2 ^ (-53 : ℤ) < 1 ∧ normL1 l = .fin false 7 ∧ normL2 l = .fin false 5 ∧
    normMax l = .fin false 4 := by
  have r : ∀ k : ℤ, 0 < k → k < 2 ^ 53 → b64Round (k : ℝ) = some (k : ℝ) :=
    fun k h1 h2 => b64_exact k 0 (by rw [abs_of_pos h1]; exact h2) (by norm_num) (by norm_num) (by simp)
      (by exact_mod_cast h1) rfl
  have r3 : b64Round 3 = some 3 := by exact_mod_cast r 3 (by norm_num) (by norm_num)
  have r5 : b64Round 5 = some 5 := by exact_mod_cast r 5 (by norm_num) (by norm_num)
  have r7 : b64Round 7 = some 7 := by exact_mod_cast r 7 (by norm_num) (by norm_num)
  have r9 : b64Round 9 = some 9 := by exact_mod_cast r 9 (by norm_num) (by norm_num)
  have r16 : b64Round 16 = some 16 := by exact_mod_cast r 16 (by norm_num) (by norm_num)
  have r25 : b64Round 25 = some 25 := by exact_mod_cast r 25 (by norm_num) (by norm_num)
  refine ⟨_, rfl, ?_, by norm_num, ?_, ?_, ?_⟩
  · intro x hx
    rcases List.mem_cons.1 hx with rfl | hx
    · exact ⟨by rintro s m ⟨⟩; norm_num, _, _, rfl⟩
    · rw [List.mem_singleton.1 hx]
      exact ⟨by rintro s m ⟨⟩; norm_num, _, _, rfl⟩
  · show ((Flt.fin false 0 : 𝔽) + .fin false 3) + .fin false 4 = _
    rw [b64_add (r := false) r3 (by norm_num) (by simp [val]), b64_add (r := false) r7 (by norm_num) (by norm_num [val, sgn])]
  · show NdFloat.sqrt (((Flt.fin false 0 : 𝔽) + .fin true 3 * .fin true 3) + .fin false 4 * .fin false 4) = _
    rw [b64_mul (r := false) (k := 9) (by norm_num; exact r9) rfl, b64_mul (r := false) (k := 16) (by norm_num; exact r16) rfl,
      b64_add (r := false) r9 (by norm_num) (by simp [val]), b64_add (r := false) r25 (by norm_num) (by norm_num [val, sgn]),
      b64_sqrt r5 (by norm_num) (by norm_num)]
  · show Flt.max (.fin false 4) (Flt.max (.fin false 3) (.fin false 0)) = (.fin false 4 : 𝔽)
    norm_num [Flt.max, Flt.lt, val, sgn]

/-- `norm_l2` of the double `2⁻⁵³⁸` alone is zero. -/
example : normL2 [(.fin false (2 ^ (-538 : ℤ)) : 𝔽)] = 0 :=
  C98_norm_l2_underflow .unrolled _ fun x hx => ⟨_, _, List.mem_singleton.1 hx, by positivity, le_rfl⟩

/-- `norm_l2` of the doubles `0` and `-2⁵¹²` is infinite. -/
example : normL2 [(0 : 𝔽), .fin true (2 ^ (512 : ℤ))] = .inf false :=
  C98_norm_l2_overflow .unrolled _ (by
    intro x hx
    rcases List.mem_cons.1 hx with rfl | hx
    · exact fun h => (nomatch h)
    · rw [List.mem_singleton.1 hx]; exact fun h => (nomatch h)) ⟨_, List.mem_cons_of_mem _ (List.mem_singleton.2 rfl), _, _, rfl, le_rfl⟩

end LinfaLinalg
