import Verif.Props.Svd
import Verif.Proofs.SvdTranspose
import Verif.Props.Eigh
import Verif.Spec.Ieee
import Verif.Spec.Rounded
import Verif.Spec.IeeeVal
import Verif.Proofs.EighExample
import Verif.Props.SvdTranspose

/-! # C103: scaling the matrix

`eigh` and `svd` divide the matrix by its largest absolute value first. So a positive factor of the matrix cancels, before any
rounding. -/

set_option linter.unusedSectionVars false

namespace LinfaLinalg

open Matrix

section generic
variable {α : Type} [Zero α] [One α] [Add α] [Sub α] [Mul α] [Div α] [Neg α] [NdFloat α]

theorem relM_eq_self {β : Type} (m : M β) : RelM (fun x y => x = y) m m := relM_refl (fun _ => rfl) m

/-- The scaled matrix decides everything but the last factor. -/
theorem symmetricEig_scale {a a' : Arr2 α} (h1 : a'.nr = a.nr) (h2 : a'.nc = a.nc)
    (h : a'.scaleDown a'.amax = a.scaleDown a.amax) (fuel : Nat) (ev : Bool) (eps : α) :
    RelM (fun x y => ∃ w : Nat → α, x.1.len = y.1.len ∧ x.2 = y.2 ∧
        ∀ i, i < x.1.len → x.1.get i = w i * a.amax ∧ y.1.get i = w i * a'.amax)
      (symmetricEig fuel a ev eps) (symmetricEig fuel a' ev eps) := by
  unfold symmetricEig
  rw [show checkSquare a' = checkSquare a by unfold checkSquare; rw [h1, h2]]
  refine relM_bind (relM_eq_self _) ?_
  rintro n _ rfl
  refine relM_ite ⟨fun _ => 0, rfl, rfl, fun i hi => absurd hi (Nat.not_lt_zero _)⟩ ?_
  simp only
  rw [h]
  refine relM_bind (relM_eq_self _) ?_
  rintro t _ rfl
  refine relM_bind (relM_eq_self _) ?_
  rintro q _ rfl
  obtain ⟨diag, off⟩ := t.intoDiagonals
  simp only
  refine relM_ite ⟨diag.get, rfl, rfl, fun i _ => ⟨rfl, rfl⟩⟩ ?_
  refine relM_bind (relM_eq_self _) ?_
  rintro ⟨off, start, e⟩ _ rfl
  refine relM_bind (relM_eq_self _) ?_
  rintro st _ rfl
  exact ⟨st.diag.get, rfl, rfl, fun i _ => ⟨rfl, rfl⟩⟩

/-- The scaled matrix decides everything but the last factor and its sign. -/
theorem svdGo_scale {a a' : Arr2 α} (h1 : a'.nr = a.nr) (h2 : a'.nc = a.nc)
    (h : a'.scaleDown a'.amax = a.scaleDown a.amax)
    (hs : ∀ w : α, NdFloat.isSignNeg (w * a'.amax) = NdFloat.isSignNeg (w * a.amax)) (fuel : Nat) (cu cv : Bool) (eps : α) :
    RelM (fun x y => ∃ w : Nat → α, x.2.1.len = y.2.1.len ∧ x.1 = y.1 ∧ x.2.2 = y.2.2 ∧
        ∀ i, i < x.2.1.len → x.2.1.get i = (if NdFloat.isSignNeg (w i * a.amax) then -(w i * a.amax) else w i * a.amax) ∧
          y.2.1.get i = (if NdFloat.isSignNeg (w i * a'.amax) then -(w i * a'.amax) else w i * a'.amax))
      (svdGo fuel a cu cv eps) (svdGo fuel a' cu cv eps) := by
  by_cases h0 : a.nr = 0 ∨ a.nc = 0
  · unfold svdGo
    rw [if_pos h0, if_pos (by rw [h1, h2]; exact h0)]
    rfl
  · rw [not_or] at h0
    obtain ⟨b, U, Vt, hb, hU, hV, hup, hsh, he⟩ := svdGo_eq a h0.1 h0.2
    obtain ⟨b', U', Vt', hb', hU', hV', -, -, he'⟩ := svdGo_eq a' (by rw [h1]; exact h0.1) (by rw [h2]; exact h0.2)
    rw [h] at hb'
    obtain rfl := Except.ok.inj (hb.symm.trans hb')
    obtain rfl := Except.ok.inj (hU.symm.trans hU')
    obtain rfl := Except.ok.inj (hV.symm.trans hV')
    rw [he, he', h1, h2]
    refine relM_bind (relM_and (relM_eq_self _) (svdDelimit_shape (by have := h0.1; have := h0.2; omega) (hsh cu cv))) ?_
    rintro ⟨s, start, e⟩ _ ⟨rfl, hs1, hlt, hle⟩
    simp only at hs1 hlt hle ⊢
    refine relM_bind (relM_and (relM_eq_self _)
      (wp_svdLoop fuel (SvdSt a.nr a.nc (min a.nr a.nc) cu cv) ⟨hs1, hlt, by
        have := h0.1; have := h0.2; simp only; omega⟩ rfl (fun st h hne => svdStep_shape h hne))) ?_
    rintro st _ ⟨rfl, hst, -⟩
    have q1 := hst.shape
    rw [fixSigns_eq _ st.s.u (by exact q1.dlen) (fun x hx => (q1.u x hx).2),
      fixSigns_eq _ st.s.u (by exact q1.dlen) (fun x hx => (q1.u x hx).2)]
    simp only [ok_bind]
    refine ⟨st.s.diag.get, rfl, ?_, rfl, fun i hi => ?_⟩
    · refine congrArg (fun g => Option.map g st.s.u) ?_
      funext u
      refine congrArg (fun g => (⟨u.nr, u.nc, g⟩ : Arr2 α)) ?_
      funext r k
      have := hs (st.s.diag.get k)
      by_cases hc : k < min a.nr a.nc ∧ NdFloat.isSignNeg (st.s.diag.get k * a.amax) = true
      · exact (if_pos hc).trans (if_pos (by rw [← this] at hc; exact hc)).symm
      · exact (if_neg hc).trans (if_neg (by rw [← this] at hc; exact hc)).symm
    · have hi : i < min a.nr a.nc := hi
      simp only [Arr1.map, hi, true_and, and_self]

end generic

/-! ## Over the reals -/

/-- The matrix times `c`. -/
def timesMat (c : ℝ) (a : Arr2 ℝ) : Arr2 ℝ := ⟨a.nr, a.nc, fun i j => c * a.get i j⟩

theorem amax_times (c : ℝ) (hc : 0 < c) (a : Arr2 ℝ) (h1 : 1 ≤ a.nr) (h2 : 1 ≤ a.nc) :
    (timesMat c a).amax = c * a.amax := by
  obtain ⟨l, i, j, hi, hj, e⟩ := amax_real a h1 h2
  obtain ⟨l', i', j', hi', hj', e'⟩ := amax_real (timesMat c a) h1 h2
  apply le_antisymm
  · rw [← e']
    change |c * a.get i' j'| ≤ _
    rw [abs_mul, abs_of_pos hc]
    exact mul_le_mul_of_nonneg_left (l i' j' hi' hj') hc.le
  · rw [← e]
    refine le_trans ?_ (l' i j hi hj)
    change _ ≤ |c * a.get i j|
    rw [abs_mul, abs_of_pos hc]

theorem scaleDown_times (c : ℝ) (hc : 0 < c) (a : Arr2 ℝ) (h : ∃ i j, i < a.nr ∧ j < a.nc ∧ a.get i j ≠ 0) :
    a.amax ≠ 0 ∧ (timesMat c a).amax = c * a.amax ∧ (timesMat c a).scaleDown (timesMat c a).amax = a.scaleDown a.amax := by
  obtain ⟨i, j, hi, hj, hne⟩ := h
  have h0 : a.amax ≠ 0 := by
    have := (amax_real a (by omega) (by omega)).1 i j hi hj
    have := abs_pos.2 hne
    exact fun h => by linarith
  have hm := amax_times c hc a (by omega) (by omega)
  refine ⟨h0, hm, ?_⟩
  rw [hm]
  unfold Arr2.scaleDown
  rw [if_neg (by simp [hc.ne', h0]), if_neg (by simp [h0])]
  unfold Arr2.map timesMat
  congr 1
  funext i j
  exact mul_div_mul_left _ _ hc.ne'

/-- C103 over the reals, `eigh`: a positive factor of a non-zero matrix multiplies the values and changes nothing else; the
number of iterations is the same. -/
theorem C103_eigh_times (c : ℝ) (hc : 0 < c) (fuel : Nat) (a : Arr2 ℝ) (h : ∃ i j, i < a.nr ∧ j < a.nc ∧ a.get i j ≠ 0) :
    (∀ f, eigh fuel a = .error f → eigh fuel (timesMat c a) = .error f) ∧
    ∀ vals vecs, eigh fuel a = .ok (vals, vecs) → ∃ vals', eigh fuel (timesMat c a) = .ok (vals', vecs) ∧
      vals'.len = vals.len ∧ ∀ i, i < vals.len → vals'.get i = c * vals.get i := by
  obtain ⟨h0, hm, hs⟩ := scaleDown_times c hc a h
  have hr := symmetricEig_scale (a := a) (a' := timesMat c a) rfl rfl hs fuel true NdFloat.epsilon
  have hr : RelM (fun (x y : Arr1 ℝ × Arr2 ℝ) => y.2 = x.2 ∧ y.1.len = x.1.len ∧ ∀ i, i < x.1.len → y.1.get i = c * x.1.get i)
      (eigh fuel a) (eigh fuel (timesMat c a)) := by
    unfold eigh eighInto
    refine relM_bind hr ?_
    rintro ⟨v, q⟩ ⟨v', q'⟩ ⟨w, w1, w2, w3⟩
    simp only at w1 w2 w3
    subst w2
    cases q with
    | none => rfl
    | some q =>
      refine ⟨rfl, w1.symm, fun i hi => ?_⟩
      rw [(w3 i hi).1, (w3 i hi).2, hm]
      ring
  constructor
  · intro f hf
    rw [hf] at hr
    cases h' : eigh fuel (timesMat c a) with
    | ok q => rw [h'] at hr; exact hr.elim
    | error e => rw [h'] at hr; exact congrArg _ hr.symm
  · intro vals vecs hok
    rw [hok] at hr
    cases h' : eigh fuel (timesMat c a) with
    | error e => rw [h'] at hr; exact hr.elim
    | ok q =>
      rw [h'] at hr
      obtain ⟨v, q⟩ := q
      obtain ⟨rfl, g1, g2⟩ := hr
      exact ⟨v, rfl, g1, g2⟩

/-- C103 over the reals, `svd`: a positive factor of a non-zero matrix multiplies the singular values and leaves the factors
as they are. -/
theorem C103_svd_times (c : ℝ) (hc : 0 < c) (fuel : Nat) (a : Arr2 ℝ) (h : ∃ i j, i < a.nr ∧ j < a.nc ∧ a.get i j ≠ 0)
    (cu cv : Bool) :
    (∀ f, svd fuel a cu cv = .error f → svd fuel (timesMat c a) cu cv = .error f) ∧
    ∀ u s vt, svd fuel a cu cv = .ok (u, s, vt) → ∃ s', svd fuel (timesMat c a) cu cv = .ok (u, s', vt) ∧
      s'.len = s.len ∧ ∀ i, i < s.len → s'.get i = c * s.get i := by
  obtain ⟨h0, hm, hs⟩ := scaleDown_times c hc a h
  have hsg : ∀ w : ℝ, NdFloat.isSignNeg (w * (timesMat c a).amax) = NdFloat.isSignNeg (w * a.amax) := by
    intro w
    rw [hm, show w * (c * a.amax) = c * (w * a.amax) by ring]
    simp [mul_neg_iff, hc, not_lt.2 hc.le]
  have hr := svdGo_scale (a := a) (a' := timesMat c a) rfl rfl hs hsg fuel cu cv (NdFloat.epsilon * NdFloat.ofRat 5)
  unfold svd
  constructor
  · intro f hf
    rw [hf] at hr
    cases h' : svdGo fuel (timesMat c a) cu cv (NdFloat.epsilon * NdFloat.ofRat 5) with
    | ok q => rw [h'] at hr; exact hr.elim
    | error e => rw [h'] at hr; exact congrArg _ hr.symm
  · intro u s vt hok
    rw [hok] at hr
    cases h' : svdGo fuel (timesMat c a) cu cv (NdFloat.epsilon * NdFloat.ofRat 5) with
    | error e => rw [h'] at hr; exact hr.elim
    | ok q =>
      rw [h'] at hr
      obtain ⟨u', s', vt'⟩ := q
      obtain ⟨w, g1, rfl, rfl, g2⟩ := hr
      refine ⟨s', rfl, g1.symm, fun i hi => ?_⟩
      rw [(g2 i hi).2, (g2 i hi).1, hsg, hm]
      split_ifs <;> ring

/-! ## Floating-point numbers -/

section ieee
variable {R : Rounding}

/-- The number times `c > 0`, without rounding; NaN and infinities stay. -/
def Flt.times (c : ℝ) : Flt R → Flt R
  | .nan => .nan
  | .inf s => .inf s
  | .fin s m => .fin s (c * m)

/-- The matrix times `c`, without rounding. -/
def Flt.timesMat (c : ℝ) (a : Arr2 (Flt R)) : Arr2 (Flt R) := ⟨a.nr, a.nc, fun i j => (a.get i j).times c⟩

theorem flt_lt_times (c : ℝ) (hc : 0 < c) (x y : Flt R) : (x.times c).lt (y.times c) = x.lt y := by
  rcases x with _ | s | ⟨s, m⟩ <;> rcases y with _ | t | ⟨t, n⟩ <;> simp only [Flt.times, Flt.lt]
  have e : ∀ (s : Bool) (m : ℝ), Flt.val s (c * m) = c * Flt.val s m := fun s m => by unfold Flt.val; ring
  rw [e, e]
  simp only [mul_lt_mul_iff_right₀ hc]

theorem flt_max_times (c : ℝ) (hc : 0 < c) (x y : Flt R) : (x.times c).max (y.times c) = (x.max y).times c := by
  have h := flt_lt_times c hc x y
  rcases x with _ | s | ⟨s, m⟩ <;> rcases y with _ | t | ⟨t, n⟩ <;> try rfl
  all_goals
    simp only [Flt.times] at h ⊢
    simp only [Flt.max]
    first
      | (rw [h]; split_ifs <;> rfl)
      | (split_ifs <;> rfl)

theorem flt_amax_times (c : ℝ) (hc : 0 < c) (a : Arr2 (Flt R)) : (Flt.timesMat c a).amax = a.amax.times c := by
  have h1 : (Flt.timesMat c a).toList.map NdFloat.abs = (a.toList.map NdFloat.abs).map (Flt.times c) := by
    unfold Arr2.toList Flt.timesMat
    simp only [List.map_flatMap, List.map_map]
    congr 1
    funext i
    congr 1
    funext j
    change Flt.abs ((a.get i j).times c) = (Flt.abs (a.get i j)).times c
    cases a.get i j <;> rfl
  have h2 : ∀ (l : List (Flt R)) (b : Flt R), (l.map (Flt.times c)).foldl NdFloat.max (b.times c) =
      (l.foldl NdFloat.max b).times c := by
    intro l
    induction l with
    | nil => intro b; rfl
    | cons x l ih =>
      intro b
      rw [List.map_cons, List.foldl_cons, List.foldl_cons, ← ih]
      congr 1
      exact flt_max_times c hc b x
  unfold Arr2.amax
  rw [h1]
  exact h2 _ (.inf true)

theorem flt_div_times (c : ℝ) (hc : 0 < c) (x y : Flt R) : x.times c / y.times c = x / y := by
  change Flt.div (x.times c) (y.times c) = Flt.div x y
  rcases x with _ | s | ⟨s, m⟩ <;> rcases y with _ | t | ⟨t, n⟩ <;> simp only [Flt.times, Flt.div]
  rw [mul_div_mul_left _ _ hc.ne']
  simp [hc.ne']

theorem flt_scaleDown_times (c : ℝ) (hc : 0 < c) (a : Arr2 (Flt R)) (h : NdFloat.isZero a.amax = false) :
    (Flt.timesMat c a).scaleDown (Flt.timesMat c a).amax = a.scaleDown a.amax := by
  rw [flt_amax_times c hc]
  have h' : NdFloat.isZero (a.amax.times c) = false := by
    change Flt.isZero _ = _
    change Flt.isZero _ = _ at h
    cases he : a.amax with
    | nan => rfl
    | inf s => rfl
    | fin s m => rw [he] at h; simpa [Flt.isZero, Flt.times, hc.ne'] using h
  unfold Arr2.scaleDown
  rw [h, h']
  simp only [Bool.false_eq_true, if_false]
  unfold Arr2.map Flt.timesMat
  congr 1
  funext i j
  exact flt_div_times c hc _ _

theorem flt_sign_times (c : ℝ) (hc : 0 < c) (w x : Flt R) : (w * x.times c).isSignNeg = (w * x).isSignNeg := by
  change (Flt.mul w (x.times c)).isSignNeg = (Flt.mul w x).isSignNeg
  rcases w with _ | s | ⟨s, m⟩ <;> rcases x with _ | t | ⟨t, n⟩ <;> simp only [Flt.times, Flt.mul]
  · simp only [mul_eq_zero, hc.ne', false_or]
  · unfold Flt.round
    cases R.rnd (m * (c * n)) <;> cases R.rnd (m * n) <;> rfl

/-- C103 in floating point, `eigh`: if the entries of a matrix (not all zero) are multiplied by `c > 0` without rounding, `eigh`
fails as before or returns the same vectors, bit by bit; and the values are the same numbers `w i`, multiplied by the
new largest entry instead of by the old one. Overflow, underflow, infinities and NaN are included. -/
theorem C103_eigh_ieee (c : ℝ) (hc : 0 < c) (fuel : Nat) (a : Arr2 (Flt R)) (h : NdFloat.isZero a.amax = false) :
    (∀ f, eigh fuel a = .error f → eigh fuel (Flt.timesMat c a) = .error f) ∧
    ∀ vals vecs, eigh fuel a = .ok (vals, vecs) → ∃ vals', ∃ w : Nat → Flt R, eigh fuel (Flt.timesMat c a) = .ok (vals', vecs) ∧
      vals'.len = vals.len ∧
      ∀ i, i < vals.len → vals.get i = w i * a.amax ∧ vals'.get i = w i * a.amax.times c := by
  have hr := symmetricEig_scale (a := a) (a' := Flt.timesMat c a) rfl rfl (flt_scaleDown_times c hc a h) fuel true NdFloat.epsilon
  have hr : RelM (fun (x y : Arr1 (Flt R) × Arr2 (Flt R)) => y.2 = x.2 ∧ y.1.len = x.1.len ∧ ∃ w : Nat → Flt R, ∀ i, i < x.1.len →
      x.1.get i = w i * a.amax ∧ y.1.get i = w i * a.amax.times c)
      (eigh fuel a) (eigh fuel (Flt.timesMat c a)) := by
    unfold eigh eighInto
    refine relM_bind hr ?_
    rintro ⟨v, q⟩ ⟨v', q'⟩ ⟨w, w1, w2, w3⟩
    simp only at w1 w2 w3
    subst w2
    rw [flt_amax_times c hc] at w3
    cases q with
    | none => rfl
    | some q => exact ⟨rfl, w1.symm, w, w3⟩
  constructor
  · intro f hf
    rw [hf] at hr
    cases h' : eigh fuel (Flt.timesMat c a) with
    | ok q => rw [h'] at hr; exact hr.elim
    | error e => rw [h'] at hr; exact congrArg _ hr.symm
  · intro vals vecs hok
    rw [hok] at hr
    cases h' : eigh fuel (Flt.timesMat c a) with
    | error e => rw [h'] at hr; exact hr.elim
    | ok q =>
      rw [h'] at hr
      obtain ⟨v, q⟩ := q
      obtain ⟨rfl, g1, w, g2⟩ := hr
      exact ⟨v, w, rfl, g1, g2⟩

theorem flt_fix_abs (x : Flt R) : (if NdFloat.isSignNeg x then -x else x) = x.abs := by
  change (if Flt.isSignNeg x then Flt.neg x else x) = x.abs
  rcases x with _ | s | ⟨s, m⟩
  · unfold Flt.isSignNeg
    split_ifs <;> rfl
  · cases s <;> rfl
  · cases s <;> rfl

/-- C103 in floating point, `svd`: the factors stay the same bit by bit, and the singular values are the same numbers `w i`,
multiplied by the new largest entry instead of by the old one. -/
theorem C103_svd_ieee (c : ℝ) (hc : 0 < c) (fuel : Nat) (a : Arr2 (Flt R)) (h : NdFloat.isZero a.amax = false) (cu cv : Bool) :
    (∀ f, svd fuel a cu cv = .error f → svd fuel (Flt.timesMat c a) cu cv = .error f) ∧
    ∀ u s vt, svd fuel a cu cv = .ok (u, s, vt) → ∃ s', ∃ w : Nat → Flt R, svd fuel (Flt.timesMat c a) cu cv = .ok (u, s', vt) ∧
      s'.len = s.len ∧
      ∀ i, i < s.len → s.get i = (w i * a.amax).abs ∧ s'.get i = (w i * a.amax.times c).abs := by
  have hr := svdGo_scale (a := a) (a' := Flt.timesMat c a) rfl rfl (flt_scaleDown_times c hc a h)
    (fun w => by rw [flt_amax_times c hc]; exact flt_sign_times c hc w _) fuel cu cv (NdFloat.epsilon * NdFloat.ofRat 5)
  unfold svd
  constructor
  · intro f hf
    rw [hf] at hr
    cases h' : svdGo fuel (Flt.timesMat c a) cu cv (NdFloat.epsilon * NdFloat.ofRat 5) with
    | ok q => rw [h'] at hr; exact hr.elim
    | error e => rw [h'] at hr; exact congrArg _ hr.symm
  · intro u s vt hok
    rw [hok] at hr
    cases h' : svdGo fuel (Flt.timesMat c a) cu cv (NdFloat.epsilon * NdFloat.ofRat 5) with
    | error e => rw [h'] at hr; exact hr.elim
    | ok q =>
      rw [h'] at hr
      obtain ⟨u', s', vt'⟩ := q
      obtain ⟨w, g1, rfl, rfl, g2⟩ := hr
      refine ⟨s', w, rfl, g1.symm, fun i hi => ?_⟩
      have := g2 i hi
      rw [flt_amax_times c hc, flt_fix_abs, flt_fix_abs] at this
      exact this

end ieee

/-! ### Powers of two in double precision -/

theorem intLog_zpow_mul (k : ℤ) {x : ℝ} (hx : 0 < x) : Int.log 2 ((2 : ℝ) ^ k * x) = k + Int.log 2 x := by
  have hk : (0 : ℝ) < 2 ^ k := by positivity
  have h1 : k + Int.log 2 x ≤ Int.log 2 ((2 : ℝ) ^ k * x) := by
    rw [← Int.zpow_le_iff_le_log (by norm_num) (by positivity)]
    push_cast
    rw [zpow_add₀ (by norm_num)]
    exact mul_le_mul_of_nonneg_left (by exact_mod_cast Int.zpow_log_le_self (by norm_num) hx) hk.le
  have h2 : Int.log 2 ((2 : ℝ) ^ k * x) < k + Int.log 2 x + 1 := by
    rw [← Int.lt_zpow_iff_log_lt (by norm_num) (by positivity)]
    push_cast
    rw [add_assoc, zpow_add₀ (by norm_num)]
    exact mul_lt_mul_of_pos_left (by exact_mod_cast Int.lt_zpow_succ_log_self (b := 2) (by norm_num) x) hk
  omega

/-- Rounding commutes with a power of two, if neither number underflows or overflows. -/
theorem b64Round_zpow (k : ℤ) {x y : ℝ} (hx : (2 : ℝ) ^ (-1022 : ℤ) ≤ x) (hx' : (2 : ℝ) ^ (-1022 : ℤ) ≤ 2 ^ k * x)
    (h : b64Round x = some y) (hy : 2 ^ k * y < (2 : ℝ) ^ (1024 : ℤ)) : b64Round (2 ^ k * x) = some (2 ^ k * y) := by
  have hx0 : 0 < x := lt_of_lt_of_le (by positivity) hx
  have hk : (0 : ℝ) < 2 ^ k := by positivity
  have l1 : -1022 ≤ Int.log 2 x := by
    rw [← Int.zpow_le_iff_le_log (by norm_num) hx0]
    exact_mod_cast hx
  have l2 : -1022 ≤ k + Int.log 2 x := by
    rw [← intLog_zpow_mul k hx0, ← Int.zpow_le_iff_le_log (by norm_num) (by positivity)]
    exact_mod_cast hx'
  have e : b64Exp (2 ^ k * x) = k + b64Exp x := by
    unfold b64Exp
    rw [intLog_zpow_mul k hx0]
    omega
  have e2 : (2 : ℝ) ^ k * x / 2 ^ (k + b64Exp x) = x / 2 ^ b64Exp x := by
    rw [zpow_add₀ (by norm_num), mul_div_mul_left _ _ hk.ne']
  unfold b64Round at h ⊢
  simp only [e, e2] at h ⊢
  split_ifs at h with hlt
  cases h
  have e3 : |(roundEven (x / 2 ^ b64Exp x) : ℝ) * 2 ^ (k + b64Exp x)| =
      2 ^ k * |(roundEven (x / 2 ^ b64Exp x) : ℝ) * 2 ^ b64Exp x| := by
    rw [zpow_add₀ (by norm_num), mul_left_comm, abs_mul, abs_of_pos hk]
  rw [e3, if_pos hy]

/-- A number below `2 ^ p` is not rounded to more. -/
theorem b64Round_le_zpow {p : ℤ} (hp : -1074 ≤ p) {x y : ℝ} (h0 : 0 < x) (hx : x < 2 ^ p) (h : b64Round x = some y) :
    y ≤ 2 ^ p := by
  have he : b64Exp x ≤ p := by
    unfold b64Exp
    refine max_le ?_ hp
    have : Int.log 2 x < p := by
      rw [← Int.lt_zpow_iff_log_lt (by norm_num) h0]
      exact_mod_cast hx
    omega
  obtain ⟨n, hn⟩ := Int.le.dest he
  unfold b64Round at h
  simp only at h
  split_ifs at h
  cases h
  set e := b64Exp x
  have hpe : (0 : ℝ) < 2 ^ e := by positivity
  have hq0 : 0 ≤ x / 2 ^ e := by positivity
  have hq : x / 2 ^ e < ((2 ^ n : ℤ) : ℝ) := by
    rw [div_lt_iff₀ hpe]
    push_cast
    rw [← zpow_natCast, ← zpow_add₀ (by norm_num), add_comm, hn]
    exact hx
  have f0 : 0 ≤ ⌊x / (2 : ℝ) ^ e⌋ := Int.floor_nonneg.2 hq0
  have f1 : ⌊x / (2 : ℝ) ^ e⌋ < 2 ^ n := Int.floor_lt.2 hq
  have r : 0 ≤ roundEven (x / 2 ^ e) ∧ roundEven (x / 2 ^ e) ≤ 2 ^ n := by
    unfold roundEven
    split_ifs <;> constructor <;> omega
  rw [abs_of_nonneg (mul_nonneg (by exact_mod_cast r.1) hpe.le)]
  calc (roundEven (x / 2 ^ e) : ℝ) * 2 ^ e ≤ ((2 ^ n : ℤ) : ℝ) * 2 ^ e :=
        mul_le_mul_of_nonneg_right (by exact_mod_cast r.2) hpe.le
    _ = 2 ^ p := by
        push_cast
        rw [← zpow_natCast, ← zpow_add₀ (by norm_num), add_comm, hn]

theorem b64Round_pos {x y : ℝ} (hx : 0 ≤ x) (h : b64Round x = some y) (hy : 0 < y) : 0 < x := by
  rcases hx.eq_or_lt with rfl | h0
  · exfalso
    have r : roundEven 0 = 0 := by
      unfold roundEven
      norm_num
    unfold b64Round at h
    simp only [zero_div, r] at h
    split_ifs at h
    cases h
    norm_num at hy
  · exact h0

/-- A product of doubles in the normal range is scaled exactly by a power of two of one factor. -/
theorem mul_times_zpow (k : ℤ) {w x : Flt Rounding.binary64} (hw : w.Proper) (hx : x.Proper) {s : Bool} {y : ℝ}
    (h : w * x = .fin s y) (h1 : (2 : ℝ) ^ (-1022 : ℤ) < y) (h2 : (2 : ℝ) ^ (-1022 : ℤ) < 2 ^ k * y)
    (h3 : 2 ^ k * y < (2 : ℝ) ^ (1024 : ℤ)) : w * x.times (2 ^ k) = .fin s (2 ^ k * y) := by
  change Flt.mul w x = _ at h
  change Flt.mul w (x.times (2 ^ k)) = _
  have hk : (0 : ℝ) < 2 ^ k := by positivity
  rcases w with _ | t | ⟨t, m⟩ <;> rcases x with _ | r | ⟨r, n⟩ <;> simp only [Flt.mul, Flt.times] at h ⊢ <;>
    try (first | (cases h) | (split_ifs at h))
  have hm : 0 ≤ m := hw _ _ rfl
  have hn : 0 ≤ n := hx _ _ rfl
  have hb : b64Round (m * n) = some y ∧ (t ^^ r) = s := by
    unfold Flt.round at h
    simp only [Rounding.binary64] at h
    cases hr : b64Round (m * n) with
    | none => rw [hr] at h; cases h
    | some z => rw [hr] at h; cases h; exact ⟨rfl, rfl⟩
  have hy0 : 0 < y := lt_trans (by positivity) h1
  have hmn : 0 < m * n := b64Round_pos (mul_nonneg hm hn) hb.1 hy0
  have g1 : (2 : ℝ) ^ (-1022 : ℤ) ≤ m * n := by
    by_contra hc
    exact absurd (b64Round_le_zpow (by norm_num) hmn (not_le.1 hc) hb.1) (not_le.2 h1)
  have g2 : (2 : ℝ) ^ (-1022 : ℤ) ≤ 2 ^ k * (m * n) := by
    by_contra hc
    rw [not_le] at hc
    have hlt : m * n < 2 ^ (-1022 - k) := by
      rw [zpow_sub₀ (by norm_num), lt_div_iff₀ hk, mul_comm]
      exact hc
    by_cases hk0 : k ≤ 0
    · have := b64Round_le_zpow (by omega) hmn hlt hb.1
      rw [zpow_sub₀ (by norm_num), le_div_iff₀ hk, mul_comm] at this
      exact absurd this (not_le.2 h2)
    · have : (2 : ℝ) ^ (-1022 - k) ≤ 2 ^ (-1022 : ℤ) := zpow_le_zpow_right₀ (by norm_num) (by omega)
      linarith
  have := b64Round_zpow k g1 g2 hb.1 h3
  rw [show m * (2 ^ k * n) = 2 ^ k * (m * n) by ring]
  unfold Flt.round
  simp only [Rounding.binary64, this, hb.2]

/-- C103 in double precision, `eigh`: a matrix (not all zero) multiplied by a power of two, without leaving the range of the
doubles, has the same computed eigenvectors, bit by bit; and each computed eigenvalue is multiplied exactly, as long as the
old and the new one lie in the normal range. (`Proper`: the model's floats carry their magnitude as a real number, here not
negative.) -/
theorem C103_eigh_binary64 (k : ℤ) (fuel : Nat) (a : Arr2 (Flt Rounding.binary64)) (h : NdFloat.isZero a.amax = false)
    (hp : a.amax.Proper) (vals : Arr1 (Flt Rounding.binary64)) (vecs : Arr2 (Flt Rounding.binary64))
    (hok : eigh fuel a = .ok (vals, vecs)) :
    ∃ vals', ∃ w : Nat → Flt Rounding.binary64, eigh fuel (Flt.timesMat (2 ^ k) a) = .ok (vals', vecs) ∧
      vals'.len = vals.len ∧
      (∀ i, i < vals.len → vals.get i = w i * a.amax ∧ vals'.get i = w i * a.amax.times (2 ^ k)) ∧
      ∀ i s y, i < vals.len → (w i).Proper → vals.get i = .fin s y → (2 : ℝ) ^ (-1022 : ℤ) < y →
        (2 : ℝ) ^ (-1022 : ℤ) < 2 ^ k * y → 2 ^ k * y < (2 : ℝ) ^ (1024 : ℤ) → vals'.get i = .fin s (2 ^ k * y) := by
  obtain ⟨vals', w, h1, h2, h3⟩ := (C103_eigh_ieee (2 ^ k) (by positivity) fuel a h).2 vals vecs hok
  refine ⟨vals', w, h1, h2, h3, fun i s y hi hw hv g1 g2 g3 => ?_⟩
  rw [(h3 i hi).2]
  exact mul_times_zpow k hw hp ((h3 i hi).1 ▸ hv) g1 g2 g3

/-- C103 in double precision, `svd`: the same, for the singular values. -/
theorem C103_svd_binary64 (k : ℤ) (fuel : Nat) (a : Arr2 (Flt Rounding.binary64)) (h : NdFloat.isZero a.amax = false)
    (hp : a.amax.Proper) (cu cv : Bool) (u vt : Option (Arr2 (Flt Rounding.binary64))) (s : Arr1 (Flt Rounding.binary64))
    (hok : svd fuel a cu cv = .ok (u, s, vt)) :
    ∃ s', ∃ w : Nat → Flt Rounding.binary64, svd fuel (Flt.timesMat (2 ^ k) a) cu cv = .ok (u, s', vt) ∧
      s'.len = s.len ∧
      (∀ i, i < s.len → s.get i = (w i * a.amax).abs ∧ s'.get i = (w i * a.amax.times (2 ^ k)).abs) ∧
      ∀ i t y, i < s.len → (w i).Proper → s.get i = .fin t y → (2 : ℝ) ^ (-1022 : ℤ) < y →
        (2 : ℝ) ^ (-1022 : ℤ) < 2 ^ k * y → 2 ^ k * y < (2 : ℝ) ^ (1024 : ℤ) → s'.get i = .fin t (2 ^ k * y) := by
  obtain ⟨s', w, h1, h2, h3⟩ := (C103_svd_ieee (2 ^ k) (by positivity) fuel a h cu cv).2 u s vt hok
  refine ⟨s', w, h1, h2, h3, fun i t y hi hw hv g1 g2 g3 => ?_⟩
  rw [(h3 i hi).2]
  have hv' := (h3 i hi).1.symm.trans hv
  cases hx : w i * a.amax with
  | nan => rw [hx] at hv'; cases hv'
  | inf r => rw [hx] at hv'; cases hv'
  | fin r m =>
    rw [hx] at hv'
    cases hv'
    rw [mul_times_zpow k hw hp hx g1 g2 g3]
    rfl

/-- A matrix of doubles whose largest entry is not zero. -/
noncomputable def scaleEx : Arr2 (Flt Rounding.binary64) := ⟨1, 2, fun _ j => if j = 0 then 1 else .fin true 2⟩

theorem scaleEx_amax : scaleEx.amax = .fin false 2 := by
  change Flt.max (Flt.max (.inf true) (.fin false 1)) (.fin false 2) = _
  simp [Flt.max, Flt.lt, Flt.val, Flt.sgn]

/-- The hypotheses in floating point are met: `svd` of `[1, -2]` in double precision returns. -/
example : ∃ u s vt s', svd 1 scaleEx true true = .ok (u, s, vt) ∧
    svd 1 (Flt.timesMat (2 ^ (-1000 : ℤ)) scaleEx) true true = .ok (u, s', vt) := by
  obtain ⟨⟨u, s, vt⟩, h⟩ := svdGo_small scaleEx true true (NdFloat.epsilon * NdFloat.ofRat 5) 0
    (by simp [scaleEx]) (by simp [scaleEx]) (by simp [scaleEx])
  obtain ⟨s', w, h', -⟩ := C103_svd_binary64 (-1000) 1 scaleEx
    (by rw [scaleEx_amax]; change decide _ = false; norm_num) (by rw [scaleEx_amax]; rintro s m ⟨⟩; norm_num) true true u vt s h
  exact ⟨u, s, vt, s', h, h'⟩

/-- The hypotheses over the reals are met: `eigh` of `[[1, 2], [2, -5]]` returns. -/
example : ∃ vals vals' vecs, eigh 1 (ofRows 2 2 [[1, 2], [2, -5]] : Arr2 ℝ) = .ok (vals, vecs) ∧
    eigh 1 (timesMat 7 (ofRows 2 2 [[1, 2], [2, -5]])) = .ok (vals', vecs) ∧
    ∀ i, i < vals.len → vals'.get i = 7 * vals.get i := by
  obtain ⟨⟨vals, vecs⟩, h⟩ := eigh_two (ofRows 2 2 [[1, 2], [2, -5]]) ⟨rfl, rfl⟩
  obtain ⟨vals', h1, h2, h3⟩ := (C103_eigh_times 7 (by norm_num) 1 (ofRows 2 2 [[1, 2], [2, -5]])
    ⟨0, 0, by norm_num [ofRows], by norm_num [ofRows], by norm_num [ofRows]⟩).2 vals vecs h
  exact ⟨vals, vals', vecs, h, h1, h3⟩

/-- And `svd` of a 3×2 matrix returns. -/
example : ∃ u s s' vt, svd 1 svdTall true true = .ok (u, s, vt) ∧ svd 1 (timesMat 7 svdTall) true true = .ok (u, s', vt) := by
  obtain ⟨⟨u, s, vt⟩, h⟩ := svdGo_small svdTall true true (NdFloat.epsilon * NdFloat.ofRat 5) 0
    (by simp [svdTall, ofRows]) (by simp [svdTall, ofRows]) (by simp [svdTall, ofRows])
  obtain ⟨s', h1, -⟩ := (C103_svd_times 7 (by norm_num) 1 svdTall
    ⟨0, 0, by norm_num [svdTall, ofRows], by norm_num [svdTall, ofRows], by norm_num [svdTall, ofRows]⟩ true true).2 u s vt h
  exact ⟨u, s, s', vt, h, h1⟩

end LinfaLinalg
