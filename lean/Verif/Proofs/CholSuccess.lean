import Verif.Proofs.CholSteps

/-! # All rows of the Cholesky factor in floats, without overflow -/

namespace LinfaLinalg

open Matrix Flt

/-- The condition on a quadratic form, for vectors with few entries. -/
theorem cond_embed {n : Nat} {ι : Type} [Fintype ι] [DecidableEq ι] {A : Matrix (Fin n) (Fin n) ℝ} {δ : ℝ}
    (hcond : ∀ x : Fin n → ℝ, δ * ∑ i, A i i * x i ^ 2 ≤ x ⬝ᵥ A *ᵥ x) (e : ι → Fin n) (he : Function.Injective e) (z : ι → ℝ) :
    δ * ∑ o, A (e o) (e o) * z o ^ 2 ≤ ∑ o, ∑ o', A (e o) (e o') * z o * z o' := by
  set x : Fin n → ℝ := fun i => ∑ o, if e o = i then z o else 0 with hx
  have hxe : ∀ o, x (e o) = z o := by
    intro o
    simp only [hx]
    rw [Finset.sum_eq_single o]
    · rw [if_pos rfl]
    · intro o' _ h; exact if_neg fun h' => h (he h')
    · intro h; exact absurd (Finset.mem_univ _) h
  have hsum : ∀ F : Fin n → ℝ, ∑ i, x i * F i = ∑ o, z o * F (e o) := by
    intro F
    simp only [hx, Finset.sum_mul]
    rw [Finset.sum_comm]
    refine Finset.sum_congr rfl fun o _ => ?_
    rw [Finset.sum_eq_single (e o)]
    · rw [if_pos rfl]
    · intro i _ h; rw [if_neg (Ne.symm h), zero_mul]
    · intro h; exact absurd (Finset.mem_univ _) h
  have h := hcond x
  have e1 : ∑ i, A i i * x i ^ 2 = ∑ o, A (e o) (e o) * z o ^ 2 := by
    rw [show ∑ i, A i i * x i ^ 2 = ∑ i, x i * (A i i * x i) from Finset.sum_congr rfl fun i _ => by ring, hsum]
    exact Finset.sum_congr rfl fun o _ => by rw [hxe]; ring
  have e2 : x ⬝ᵥ A *ᵥ x = ∑ o, ∑ o', A (e o) (e o') * z o * z o' := by
    unfold dotProduct
    rw [hsum]
    refine Finset.sum_congr rfl fun o _ => ?_
    have : (A *ᵥ x) (e o) = ∑ i, x i * A (e o) i := by
      simp only [mulVec, dotProduct]
      exact Finset.sum_congr rfl fun i _ => mul_comm _ _
    rw [this, hsum, Finset.mul_sum]
    exact Finset.sum_congr rfl fun o' _ => by ring
  rwa [e1, e2] at h

variable {R : Rounding} {u η Ω g τ M δ : ℝ} {n : Nat}

/-- The matrices for which nothing goes wrong: a finite lower triangle, symmetric, diagonal entries in the range, and well
conditioned after scaling the diagonal to one. -/
structure CholInput (A : Arr2 (Flt R)) (g τ M δ : ℝ) (n : Nat) : Prop where
  fin : ∀ r c, r < n → c ≤ r → IsFin (A.get r c)
  sym : ∀ r c, r < n → c < n → (A.get r c).rv = (A.get c r).rv
  lo : ∀ i, i < n → τ ≤ (A.get i i).rv
  hi : ∀ i, i < n → (A.get i i).rv ≤ M
  cond : ∀ x : Fin n → ℝ, δ * ∑ i : Fin n, (A.get i i).rv * x i ^ 2 ≤ x ⬝ᵥ toMat n n (vals A) *ᵥ x
  δg : 4 * (n + 1) * g ≤ δ

/-- Row `r` of the factor is finite, in range, and reproduces the matrix. -/
structure RowOk (A b : Arr2 (Flt R)) (g : ℝ) (r : Nat) : Prop where
  fin : ∀ c, c ≤ r → IsFin (b.get r c)
  proper : ∀ c, c ≤ r → Proper (b.get r c)
  lo : √g * √(A.get r r).rv ≤ (b.get r r).rv
  hi : (b.get r r).rv ≤ 2 * √(A.get r r).rv
  dot : ∀ c, c ≤ r → |∑ i ∈ Finset.range (c + 1), (b.get c i).rv * (b.get r i).rv - (A.get r c).rv| ≤
    4 * g * (√(A.get r r).rv * √(A.get c c).rv)

/-- The squares in a row stay below the diagonal entry. -/
theorem row_squares (P : CholRange R u η Ω g τ M n) {A b : Arr2 (Flt R)} (hA : CholInput A g τ M δ n) {k r : Nat} (hkr : k ≤ r)
    (hr : r < n) (hprev : ∀ i, i < k → RowOk A b g i)
    (hrow : ∀ c, c < k → |∑ i ∈ Finset.range (c + 1), (b.get c i).rv * (b.get r i).rv - (A.get r c).rv| ≤
      4 * g * (√(A.get r r).rv * √(A.get c c).rv)) :
    ∑ i ∈ Finset.range k, (b.get r i).rv ^ 2 ≤ (A.get r r).rv - 4 * g * (A.get r r).rv := by
  have pos : ∀ i, i < n → 0 < (A.get i i).rv := fun i hi => P.τ0.trans_le (hA.lo i hi)
  have hkn : (k : ℝ) + 1 ≤ n := by exact_mod_cast (by omega : k + 1 ≤ n)
  have hg0 := P.g0
  have hδ := hA.δg
  have h := schur_pos (k := k) (j := r) (fun r c => (b.get r c).rv) (fun r c => (A.get r c).rv) δ (4 * g) (by linarith)
    (fun i hi => (pos i (by omega)).le) (pos r hr).le
    (fun i hi => ((mul_pos (Real.sqrt_pos.2 hg0) (Real.sqrt_pos.2 (pos i (by omega)))).trans_le (hprev i hi).lo).ne')
    (fun r c hr hc => hA.sym r c (by omega) (by omega)) (fun r c hr hc => (hprev r hr).dot c hc) hrow ?_ (by nlinarith)
  · refine h.trans ?_
    have : 4 * g ≤ δ - (k + 1) * (4 * g) := by nlinarith
    have := mul_le_mul_of_nonneg_right this (pos r hr).le
    linarith
  · intro y
    have h1 := cond_embed (A := toMat n n (vals A)) hA.cond (ι := Option (Fin k)) (fun o => o.elim ⟨r, hr⟩ fun i => ⟨i, by omega⟩) (by
      rintro (_ | i) (_ | j) h
      · rfl
      · have := congrArg Fin.val h; simp at this; omega
      · have := congrArg Fin.val h; simp at this; omega
      · have := congrArg Fin.val h; simp at this; rw [Fin.ext this]) (fun o => o.elim 1 fun i => -y i)
    simp only [Fintype.sum_option, Option.elim_none, Option.elim_some, toMat_apply, vals] at h1
    have e1 : ∑ i : Fin k, (A.get r i).rv * 1 * -y i = -∑ i : Fin k, (A.get r i).rv * y i := by
      rw [← Finset.sum_neg_distrib]; exact Finset.sum_congr rfl fun i _ => by ring
    have e2 : ∑ i : Fin k, ((A.get i r).rv * -y i * 1 + ∑ j : Fin k, (A.get i j).rv * -y i * -y j) =
        -∑ i : Fin k, (A.get r i).rv * y i + ∑ i : Fin k, ∑ j : Fin k, (A.get i j).rv * y i * y j := by
      rw [Finset.sum_add_distrib, ← Finset.sum_neg_distrib]
      congr 1
      · exact Finset.sum_congr rfl fun i _ => by rw [hA.sym i r (by omega) hr]; ring
      · exact Finset.sum_congr rfl fun i _ => Finset.sum_congr rfl fun j _ => by ring
    have e3 : ∑ i : Fin k, (A.get i i).rv * (-y i) ^ 2 = ∑ i : Fin k, (A.get i i).rv * y i ^ 2 :=
      Finset.sum_congr rfl fun i _ => by ring
    rw [e1, e2, e3] at h1
    linarith

/-- Entries beside the diagonal are bounded by the diagonal. -/
theorem entry_le (P : CholRange R u η Ω g τ M n) {A : Arr2 (Flt R)} (hA : CholInput A g τ M δ n) {r c : Nat} (hcr : c < r)
    (hr : r < n) : |(A.get r c).rv| ≤ √(A.get r r).rv * √(A.get c c).rv := by
  have pos : ∀ i, i < n → 0 < (A.get i i).rv := fun i hi => P.τ0.trans_le (hA.lo i hi)
  have hδ0 : 0 ≤ δ := le_trans (by have := P.g0; positivity) hA.δg
  have key : ∀ z : Fin 2 → ℝ, 0 ≤ (A.get r r).rv * z 0 * z 0 + 2 * ((A.get r c).rv * z 0 * z 1) + (A.get c c).rv * z 1 * z 1 := by
    intro z
    have h1 := cond_embed (A := toMat n n (vals A)) hA.cond (![⟨r, hr⟩, ⟨c, by omega⟩] : Fin 2 → Fin n) (by
      intro i j h
      fin_cases i <;> fin_cases j <;> simp at h ⊢ <;> omega) z
    simp only [Fin.sum_univ_two, toMat_apply, vals] at h1
    simp at h1
    have h2 : 0 ≤ δ * ((A.get r r).rv * z 0 ^ 2 + (A.get c c).rv * z 1 ^ 2) := by
      have := pos r hr; have := pos c (by omega); positivity
    rw [hA.sym c r (by omega) hr] at h1
    linarith
  have pr := Real.mul_self_sqrt (pos r hr).le
  have pc := Real.mul_self_sqrt (pos c (by omega)).le
  have sr := Real.sqrt_pos.2 (pos r hr)
  have sc := Real.sqrt_pos.2 (pos c (by omega))
  set p := √(A.get r r).rv
  set q := √(A.get c c).rv
  have h1 := key ![q, p]
  have h2 := key ![q, -p]
  simp at h1 h2
  rw [← pr, ← pc] at h1 h2
  have hpq : 0 < p * q := mul_pos sr sc
  rw [abs_le]
  constructor
  · by_contra h; push Not at h; nlinarith
  · by_contra h; push Not at h; nlinarith

/-- One row, up to the diagonal. -/
theorem row_off (P : CholRange R u η Ω g τ M n) {A b : Arr2 (Flt R)} (hA : CholInput A g τ M δ n) {r : Nat} (hr : r < n)
    (hoff : OffRow A b r) (hprev : ∀ i, i < r → RowOk A b g i) (c : Nat) (hc : c < r) :
    IsFin (b.get r c) ∧ Proper (b.get r c) ∧
      |∑ i ∈ Finset.range (c + 1), (b.get c i).rv * (b.get r i).rv - (A.get r c).rv| ≤
        4 * g * (√(A.get r r).rv * √(A.get c c).rv) := by
  induction c using Nat.strong_induction_on with
  | _ c ih =>
    have h1 := row_squares P hA (k := c) (r := r) hc.le hr (fun i hi => hprev i (by omega)) fun i hi => (ih i hi (by omega)).2.2
    have h2 := row_squares P hA (k := c) (r := c) le_rfl (by omega) (fun i hi => hprev i (by omega))
      fun i hi => (hprev c hc).dot i hi.le
    have pos : ∀ i, i < n → 0 < (A.get i i).rv := fun i hi => P.τ0.trans_le (hA.lo i hi)
    have hg0 := P.g0
    have hS : ∑ k ∈ Finset.range c, |(b.get c k).rv * (b.get r k).rv| ≤ √(A.get r r).rv * √(A.get c c).rv := by
      have hcs := Real.sum_mul_le_sqrt_mul_sqrt (Finset.range c) (fun k => |(b.get c k).rv|) (fun k => |(b.get r k).rv|)
      simp only [sq_abs, ← abs_mul] at hcs
      refine hcs.trans ?_
      rw [mul_comm]
      have p1 := pos r hr
      have p2 := pos c (by omega)
      refine mul_le_mul (Real.sqrt_le_sqrt ?_) (Real.sqrt_le_sqrt ?_) (Real.sqrt_nonneg _) (Real.sqrt_nonneg _)
      · have : 0 ≤ 4 * g * (A.get r r).rv := by positivity
        linarith
      · have : 0 ≤ 4 * g * (A.get c c).rv := by positivity
        linarith
    have h3 := P.off (c := c) (by omega) (x := A.get r c) (d := b.get c c) (hA.fin r c hr hc.le) ((hprev c hc).proper c le_rfl)
      ((hprev c hc).fin c le_rfl) (fun k => b.get c k) (fun k => b.get r k) (fun k hk => (hprev c hc).proper k hk.le)
      (fun k hk => (ih k hk (by omega)).2.1) (fun k hk => (hprev c hc).fin k hk.le) (fun k hk => (ih k hk (by omega)).1)
      (hA.lo r hr) (hA.hi r hr) (hA.lo c (by omega)) (hA.hi c (by omega)) (entry_le P hA hc hr) hS (hprev c hc).lo (hprev c hc).hi
    rw [← hoff c hc] at h3
    refine ⟨h3.1, ?_, ?_⟩
    · rw [hoff c hc]; exact proper_div _ _
    · rw [Finset.sum_range_succ]; exact h3.2

/-- The pivot of a row: positive; and the row is complete with its root. -/
theorem row_pivot (P : CholRange R u η Ω g τ M n) {A b : Arr2 (Flt R)} (hA : CholInput A g τ M δ n) {r : Nat} (hr : r < n)
    (hoff : OffRow A b r) (hprev : ∀ i, i < r → RowOk A b g i) :
    IsFin (pivot A b r) ∧ 0 < (pivot A b r).rv ∧ (b.get r r = NdFloat.sqrt (pivot A b r) → RowOk A b g r) := by
  have ho := row_off P hA hr hoff hprev
  have h1 := row_squares P hA le_rfl hr hprev fun c hc => (ho c hc).2.2
  obtain ⟨f1, f2, f3, f4, f5, f6⟩ := P.pivot hr (hA.fin r r hr le_rfl) (fun k => b.get r k) (fun k hk => (ho k hk).2.1)
    (fun k hk => (ho k hk).1) (hA.lo r hr) (hA.hi r hr) h1
  refine ⟨f1, f2, fun hd => ?_⟩
  have hd' : NdFloat.sqrt (A.get r r - sumTo r fun k => b.get r k * b.get r k) = b.get r r := hd.symm
  rw [hd'] at f3 f4 f5 f6
  refine ⟨fun c hc => ?_, fun c hc => ?_, f4, f5, fun c hc => ?_⟩
  · rcases Nat.lt_or_eq_of_le hc with h | rfl
    · exact (ho c h).1
    · exact f3
  · rcases Nat.lt_or_eq_of_le hc with h | rfl
    · exact (ho c h).2.1
    · rw [hd]; exact proper_sqrt _
  · rcases Nat.lt_or_eq_of_le hc with h | rfl
    · exact (ho c h).2.2
    · rw [Finset.sum_range_succ, Real.mul_self_sqrt (P.τ0.trans_le (hA.lo c hr)).le]
      have : ∑ i ∈ Finset.range c, (b.get c i).rv * (b.get c i).rv + (b.get c c).rv * (b.get c c).rv =
          ∑ i ∈ Finset.range c, (b.get c i).rv ^ 2 + (b.get c c).rv ^ 2 := by
        rw [sq (b.get c c).rv]
        congr 1
        exact Finset.sum_congr rfl fun i _ => by ring
      rw [this]; exact f6

/-- All rows that have been completed. -/
theorem rows_ok (P : CholRange R u η Ω g τ M n) {A b : Arr2 (Flt R)} (hA : CholInput A g τ M δ n) {j : Nat} (hj : j ≤ n)
    (hoff : ∀ r, r < j → OffRow A b r) (hdiag : ∀ r, r < j → b.get r r = NdFloat.sqrt (pivot A b r)) (r : Nat) (hr : r < j) :
    RowOk A b g r := by
  induction r using Nat.strong_induction_on with
  | _ r ih => exact (row_pivot P hA (by omega) (hoff r hr) fun i hi => ih i hi (by omega)).2.2 (hdiag r hr)

/-- No pivot is rejected. -/
theorem not_failed (P : CholRange R u η Ω g τ M n) {A b : Arr2 (Flt R)} (hA : CholInput A g τ M δ n) {j : Nat} (hj : j < n)
    (h : CholFailed j A b) : False := by
  obtain ⟨h1, h2, -⟩ := row_pivot P hA hj (h.off j le_rfl)
    (rows_ok P hA hj.le (fun r hr => h.off r hr.le) h.diag)
  have hb := h.bad
  obtain ⟨s, m, e⟩ := h1
  rw [e] at h2 hb
  change Flt.le (fin s m) (fin false 0) = true at hb
  simp [Flt.le, val] at hb
  change 0 < val s m at h2
  simp [val] at h2
  linarith

end LinfaLinalg
