import Verif.Props.Cholesky
import Verif.Props.Qr
import Verif.Proofs.Blocks

/-! # C100–C102: leading blocks and single right-hand sides, in every arithmetic -/

set_option linter.unusedSectionVars false

namespace LinfaLinalg

open Matrix

section generic
variable {α : Type} [Zero α] [One α] [Add α] [Sub α] [Mul α] [Div α] [Neg α] [NdFloat α]

/-! ## C100 -/

/-- The leading `k × k` block. -/
def leadBlock (a : Arr2 α) (k : Nat) : Arr2 α := ⟨k, k, a.get⟩

theorem offRow_unique {A A' b b' : Arr2 α} {r : Nat} (h : OffRow A b r) (h' : OffRow A' b' r)
    (hA : ∀ c, c < r → A.get r c = A'.get r c)
    (prev : ∀ r', r' < r → ∀ c, c ≤ r' → b.get r' c = b'.get r' c) :
    ∀ c, c < r → b.get r c = b'.get r c := by
  intro c
  induction c using Nat.strong_induction_on with
  | _ c ih =>
    intro hc
    rw [h c hc, h' c hc, hA c hc, prev c hc c le_rfl]
    congr 2
    refine sumTo_congr fun i hi => ?_
    rw [prev c hc i hi.le, ih i hi (hi.trans hc)]

theorem pivot_congr {A A' b b' : Arr2 α} {r : Nat} (hA : A.get r r = A'.get r r)
    (hb : ∀ c, c < r → b.get r c = b'.get r c) : pivot A b r = pivot A' b' r := by
  unfold pivot
  rw [hA]
  congr 1
  exact sumTo_congr fun i hi => by rw [hb i hi]

theorem cholRows_unique {A A' b b' : Arr2 α} {k : Nat} (hA : ∀ r c, r < k → c ≤ r → A.get r c = A'.get r c)
    (h : ∀ r, r < k → OffRow A b r) (h' : ∀ r, r < k → OffRow A' b' r)
    (hd : ∀ r, r < k → b.get r r = NdFloat.sqrt (pivot A b r))
    (hd' : ∀ r, r < k → b'.get r r = NdFloat.sqrt (pivot A' b' r)) :
    ∀ r, r < k → ∀ c, c ≤ r → b.get r c = b'.get r c := by
  intro r
  induction r using Nat.strong_induction_on with
  | _ r ih =>
    intro hr c hc
    have h1 := offRow_unique (h r hr) (h' r hr) (fun c hc => hA r c hr hc.le)
      (fun r' h1 c h2 => ih r' h1 (h1.trans hr) c h2)
    rcases lt_or_eq_of_le hc with hc | rfl
    · exact h1 c hc
    · rw [hd c hr, hd' c hr, pivot_congr (hA c c hr le_rfl) h1]

/-- C100: in every arithmetic, if `cholesky` accepts a matrix it accepts every matrix whose lower triangle is
the leading `k × k` part of it, and the factor is the leading `k × k` block of the factor: neither the outcome for row `i`
nor the entries of that row depend on later rows. -/
theorem C100_cholesky_leading (a a' L : Arr2 α) (k : Nat) (hk : k ≤ a.nr) (hs : HasShape a' k k)
    (hA : ∀ i j, i < k → j ≤ i → a'.get i j = a.get i j) (h : cholesky a = .ok L) :
    ∃ L', cholesky a' = .ok L' ∧ HasShape L' k k ∧ ∀ i j, i < k → j < k → L'.get i j = L.get i j := by
  have hsq : a.nr = a.nc := by
    by_contra hne
    rw [cholesky_notSquare a hne] at h
    cases h
  rcases cholesky_cases a hsq with ⟨b, e, hb, -⟩ | ⟨e, -⟩
  · obtain rfl := Except.ok.inj (e.symm.trans h)
    rcases cholesky_cases a' (hs.1.trans hs.2.symm) with ⟨b', e', hb', -⟩ | ⟨-, -, b', j, hj, hb', -⟩
    · refine ⟨_, e', ⟨hb'.nr.trans hs.1, hb'.nc.trans hs.2⟩, fun i j hi hj => ?_⟩
      have q1 : b'.nr = k := hb'.nr.trans hs.1
      have q2 := hb.nr
      rw [hs.1] at hb'
      unfold cleanLower
      simp only
      by_cases hij : i < j
      · rw [if_pos ⟨by omega, hij, by omega⟩, if_pos ⟨by omega, hij, by omega⟩]
      · rw [if_neg (by tauto), if_neg (by tauto)]
        exact cholRows_unique hA (fun r hr => hb'.off r hr) (fun r hr => hb.off r (by omega))
          (fun r hr => hb'.diag r hr) (fun r hr => hb.diag r (by omega)) i hi j (by omega)
    · exfalso
      rw [hs.1] at hj
      have hp := cholRows_unique (k := j) (fun r c hr hc => hA r c (by omega) hc) (fun r hr => hb'.off r hr.le)
        (fun r hr => hb.off r (by omega)) (fun r hr => hb'.diag r hr) (fun r hr => hb.diag r (by omega))
      have hr := offRow_unique (hb'.off j le_rfl) (hb.off j (by omega)) (fun c hc => hA j c hj hc.le) hp
      have := hb'.bad
      rw [pivot_congr (hA j j hj le_rfl) hr, hb.piv j (by omega)] at this
      cases this
  · rw [e] at h; cases h

/-- C100, failures: if `cholesky` finds a square matrix not positive definite then there is a first row `j` at
which it gives up: the leading `k × k` block is accepted for `k ≤ j` and refused for `k > j`. -/
theorem C100_cholesky_leading_refused (a : Arr2 α) (h : cholesky a = .error (.err .notPositiveDefinite)) :
    ∃ j, j < a.nr ∧ ∀ k, k ≤ a.nr →
      (k ≤ j → ∃ L, cholesky (leadBlock a k) = .ok L) ∧
      (j < k → cholesky (leadBlock a k) = .error (.err .notPositiveDefinite)) := by
  have hsq : a.nr = a.nc := by
    by_contra hne
    rw [cholesky_notSquare a hne] at h
    cases h
  rcases cholesky_cases a hsq with ⟨b, e, -⟩ | ⟨-, -, b, j, hj, hb, -⟩
  · rw [e] at h; cases h
  · refine ⟨j, hj, fun k hk => ⟨fun hkj => ?_, fun hjk => ?_⟩⟩
    · rcases cholesky_cases (leadBlock a k) rfl with ⟨b', e', -⟩ | ⟨-, -, b', j', hj', hb', -⟩
      · exact ⟨_, e'⟩
      · exfalso
        have hj' : j' < k := hj'
        have hp := cholRows_unique (A := leadBlock a k) (A' := a) (k := j') (fun r c hr hc => rfl)
          (fun r hr => hb'.off r hr.le) (fun r hr => hb.off r (by omega)) (fun r hr => hb'.diag r hr)
          (fun r hr => hb.diag r (by omega))
        have hr := offRow_unique (hb'.off j' le_rfl) (hb.off j' (by omega)) (fun c hc => rfl) hp
        have := hb'.bad
        rw [pivot_congr (A := leadBlock a k) (A' := a) rfl hr, hb.piv j' (by omega)] at this
        cases this
    · rcases cholesky_cases (leadBlock a k) rfl with ⟨b', e', hb', -⟩ | ⟨e, -⟩
      · exfalso
        change CholRows k _ _ at hb'
        have hp := cholRows_unique (A := leadBlock a k) (A' := a) (k := j) (fun r c hr hc => rfl)
          (fun r hr => hb'.off r (by omega)) (fun r hr => hb.off r hr.le) (fun r hr => hb'.diag r (by omega))
          (fun r hr => hb.diag r hr)
        have hr := offRow_unique (hb'.off j hjk) (hb.off j le_rfl) (fun c hc => rfl) hp
        have := hb'.piv j hjk
        rw [pivot_congr (A := leadBlock a k) (A' := a) rfl hr, hb.bad] at this
        cases this
      · exact e

/-! ## C101 -/

/-- C101: in every arithmetic, the QR decomposition of the first `k` columns of a thin matrix consists of the first
`k` columns of the compact factor and of the first `k` diagonal entries of the decomposition of the whole matrix; `Q`
is given by the first `k` columns of `Q` and `R` by the leading `k × k` block of `R`. -/
theorem C101_qr_leading (a : Arr2 α) (q : QRDecomp α) (k : Nat) (hk : k ≤ a.nc) (h : qrInto a = .ok q) :
    ∃ q', qrInto (firstCols a k) = .ok q' ∧
      (∀ i j, j < k → q'.qr.get i j = q.qr.get i j) ∧ (∀ j, j < k → q'.diag.get j = q.diag.get j) ∧
      ∃ Q R Q' R', q.intoDecomp = .ok (Q, R) ∧ q'.intoDecomp = .ok (Q', R') ∧ HasShape Q' a.nr k ∧ HasShape R' k k ∧
        (∀ i j, j < k → Q'.get i j = Q.get i j) ∧ ∀ i j, i < k → j < k → R'.get i j = R.get i j := by
  have hthin : a.nc ≤ a.nr := by
    by_contra hlt
    unfold qrInto at h
    rw [if_pos (by omega)] at h
    cases h
  obtain ⟨q₁, q', e1, e2, s1, s2, h1, h2⟩ := qrInto_first a k hk hthin
  obtain rfl := Except.ok.inj (e1.symm.trans h)
  obtain ⟨Q, Q', g1, g2, t1, t2, h3⟩ := generateQ_first s1 s2 hthin hk h1 h2
  refine ⟨q', e2, h1, h2, Q, ⟨a.nc, a.nc, fun i j => if i = j ∧ i < a.nc then NdFloat.abs (q₁.diag.get i)
      else if i < a.nc ∧ j < i then 0 else q₁.qr.get i j⟩, Q', ⟨k, k, fun i j => if i = j ∧ i < k then NdFloat.abs (q'.diag.get i)
      else if i < k ∧ j < i then 0 else q'.qr.get i j⟩, ?_, ?_, t2, ⟨rfl, rfl⟩, h3, ?_⟩
  · unfold QRDecomp.intoDecomp
    rw [g1, s1.intoR_eq hthin]
    rfl
  · unfold QRDecomp.intoDecomp
    rw [g2, s2.intoR_eq (hk.trans hthin)]
    rfl
  · intro i j hi hj
    have q1 : i < a.nc := by omega
    simp only [hi, q1, and_true, true_and, h1 i j hj, h2 i hi]

/-! ## C102 -/

/-- Column `j` of the result is column `σ j` of `b`. -/
def selectCols (b : Arr2 α) (w : Nat) (σ : Nat → Nat) : Arr2 α := ⟨b.nr, w, fun i j => b.get i (σ j)⟩

/-- `solve` treats the columns of its argument one by one: it makes no difference to the outcome, nor to any column of
the answer, which other columns are given, how often and in which order. -/
def Columnwise (solve : Arr2 α → M (Arr2 α)) : Prop :=
  ∀ b w σ, (∀ j, j < w → σ j < b.nc) →
    (∀ f, solve b = .error f → solve (selectCols b w σ) = .error f) ∧
    ∀ x, solve b = .ok x → ∃ x', solve (selectCols b w σ) = .ok x' ∧ HasShape x' x.nr w ∧ x.nc = b.nc ∧
      ∀ i j, j < w → x'.get i j = x.get i (σ j)

theorem columnwise_of {solve : Arr2 α → M (Arr2 α)}
    (h : ∀ (P : Nat → Nat → Prop) (b b' : Arr2 α), ColRel P b b' →
      RelM (fun x y => ColRel P x y ∧ x.nc = b.nc ∧ y.nc = b'.nc) (solve b) (solve b')) : Columnwise solve := by
  intro b w σ hσ
  have hr := h (fun j j' => j' < w ∧ j = σ j') b (selectCols b w σ)
    ⟨rfl, by rintro _ j' ⟨hj, rfl⟩; exact ⟨hσ j' hj, hj⟩, by rintro _ j' ⟨hj, rfl⟩ i; rfl⟩
  constructor
  · intro f hf
    rw [hf] at hr
    cases h' : solve (selectCols b w σ) with
    | ok y => rw [h'] at hr; exact hr.elim
    | error e => rw [h'] at hr; exact congrArg _ hr.symm
  · intro x hx
    rw [hx] at hr
    cases h' : solve (selectCols b w σ) with
    | error e => rw [h'] at hr; exact hr.elim
    | ok y =>
      rw [h'] at hr
      obtain ⟨g1, g2, g3⟩ := hr
      exact ⟨y, rfl, ⟨g1.nr.symm, g3⟩, g2, fun i j hj => (g1.get (σ j) j ⟨hj, rfl⟩ i).symm⟩

/-- C102: `solvec` treats the columns of the right-hand side one by one, in every arithmetic. -/
theorem C102_solvec_columns (a : Arr2 α) : Columnwise (solvec a) :=
  columnwise_of fun _ _ _ h => relM_mono (solvec_col h a) fun _ _ g => ⟨g.1, g.2.2⟩

/-- C102: so do `QRDecomp::solve` and `solve_tr`. -/
theorem C102_qr_columns (a : Arr2 α) (q : QRDecomp α) (h : qrInto a = .ok q) :
    Columnwise q.solveInto ∧ Columnwise q.solveTrInto := by
  have hthin : a.nc ≤ a.nr := by
    by_contra hlt
    unfold qrInto at h
    rw [if_pos (by omega)] at h
    cases h
  obtain ⟨q₁, e, hq⟩ := qrInto_ok a hthin
  obtain rfl := Except.ok.inj (e.symm.trans h)
  exact ⟨columnwise_of fun _ _ _ h => relM_mono (solveInto_col h hq hthin) fun _ _ g => ⟨g.1, g.2.2⟩,
    columnwise_of fun _ _ _ h => relM_mono (solveTrInto_col h hq hthin) fun _ _ g => ⟨g.1, g.2.2⟩⟩

/-- C102: and `least_squares`, for thin and for wide matrices. -/
theorem C102_least_squares_columns (a : Arr2 α) : Columnwise (leastSquares a) := by
  refine columnwise_of fun P b b' h => ?_
  unfold leastSquares
  by_cases hn : a.nr ≥ a.nc
  · obtain ⟨q, e, hq⟩ := qrInto_ok a hn
    rw [if_pos hn, if_pos hn, e]
    exact relM_mono (solveInto_col h hq hn) fun _ _ g => ⟨g.1, g.2.2⟩
  · obtain ⟨q, e, hq⟩ := qrInto_ok a.t (by change a.nr ≤ a.nc; omega)
    rw [if_neg hn, if_neg hn, e]
    exact relM_mono (solveTrInto_col h hq (by change a.nr ≤ a.nc; omega)) fun _ _ g => ⟨g.1, g.2.2⟩

end generic

/-! ## Cases that meet the hypotheses -/

/-- The hypotheses of C100 are met by `exSpd` and its first entry. -/
example : ∃ L L', cholesky exSpd = .ok L ∧ cholesky (leadBlock exSpd 1) = .ok L' ∧ L'.get 0 0 = L.get 0 0 := by
  obtain ⟨L, hL⟩ := (C09_cholesky_iff_posDef exSpd ⟨rfl, rfl⟩ exSpd_posDef.1).1.2 exSpd_posDef
  obtain ⟨L', h1, -, h2⟩ := C100_cholesky_leading exSpd (leadBlock exSpd 1) L 1 (by simp [exSpd, ofRows]) ⟨rfl, rfl⟩
    (fun _ _ _ _ => rfl) hL
  exact ⟨L, L', hL, h1, h2 0 0 (by simp) (by simp)⟩

/-- An indefinite matrix with a positive entry in front. -/
def exSaddle : Arr2 ℝ := ofRows 2 2 [[1, 2], [2, 1]]

/-- It is refused, and only from the second row on. -/
example : cholesky exSaddle = .error (.err .notPositiveDefinite) ∧ ∃ L, cholesky (leadBlock exSaddle 1) = .ok L := by
  constructor
  · refine (C09_cholesky_iff_posDef (n := 2) exSaddle ⟨rfl, rfl⟩ ?_).2 ?_
    · ext i j
      fin_cases i <;> fin_cases j <;> simp [exSaddle, ofRows]
    · intro h
      have := h.2 ![1, -1] (by intro h; have := congrFun h 0; simp at this)
      simp [dotProduct, Matrix.mulVec, exSaddle, ofRows, Fin.sum_univ_two] at this
  · refine (C09_cholesky_iff_posDef (n := 1) (leadBlock exSaddle 1) ⟨rfl, rfl⟩ ?_).1.2 ⟨?_, fun v hv => ?_⟩
    · ext i j
      fin_cases i; fin_cases j; rfl
    · ext i j
      fin_cases i; fin_cases j; rfl
    · have : v 0 ≠ 0 := fun h0 => hv (by ext i; fin_cases i; exact h0)
      simp [dotProduct, Matrix.mulVec, leadBlock, exSaddle, ofRows]
      exact this

/-- C101 applies to every thin matrix, for example to one of rank one. -/
example : ∃ q : QRDecomp ℝ, qrInto (ofRows 3 2 [[1, 2], [2, 4], [3, 6]]) = .ok q ∧ 1 ≤ (ofRows 3 2 [[1, 2], [2, 4], [3, 6]] : Arr2 ℝ).nc := by
  obtain ⟨q, hq⟩ := (C17_qr_thin (ofRows 3 2 [[1, 2], [2, 4], [3, 6]] : Arr2 ℝ)).2 (by simp [ofRows])
  exact ⟨q, hq, by simp [ofRows]⟩

/-- C102: exchanging two right-hand sides exchanges the solutions. -/
example : ∃ x x', solvec exSpd (ofRows 2 2 [[1, 2], [3, 4]]) = .ok x ∧
    solvec exSpd (selectCols (ofRows 2 2 [[1, 2], [3, 4]]) 2 fun j => 1 - j) = .ok x' ∧ ∀ i, x'.get i 0 = x.get i 1 := by
  obtain ⟨x, hx, -⟩ := C13_solvec exSpd (ofRows 2 2 [[1, 2], [3, 4]]) ⟨rfl, rfl⟩ ⟨rfl, rfl⟩ exSpd_posDef
  obtain ⟨x', h1, -, -, h2⟩ := (C102_solvec_columns exSpd (ofRows 2 2 [[1, 2], [3, 4]]) 2 (fun j => 1 - j)
    (by intro j hj; simp only [ofRows]; omega)).2 x hx
  exact ⟨x, x', hx, h1, fun i => h2 i 0 (by simp)⟩

end LinfaLinalg
