import Verif.Proofs.LobpcgReal
import Verif.Proofs.LobpcgTotal
import Verif.Props.Sort
import Verif.Props.Norm

/-! # The small eigenproblems of `lobpcg` over the reals -/

set_option linter.unusedSectionVars false

namespace LinfaLinalg

open Matrix

/-- The eigenproblem that `sorted_eig` solves before sorting. -/
noncomputable def innerEig (eig : EigSolver ℝ) (a : Arr2 ℝ) (b : Option (Arr2 ℝ)) : M (Arr1 ℝ × Arr2 ℝ) :=
  match b with
  | some b => generalizedEig eig a b
  | none => eig a

/-- `sorted_eig` permutes the columns, flips signs and truncates. -/
theorem sortedEig_rule {eig : EigSolver ℝ} {a : Arr2 ℝ} {b : Option (Arr2 ℝ)} {v0 : Arr1 ℝ}
    {q0 : Arr2 ℝ} {s size : Nat} (hin : innerEig eig a b = .ok (v0, q0)) (hv : v0.len = s)
    (hq : HasShape q0 s s) (hs : 1 ≤ s) (hsize : size ≤ s) (order : Order) :
    ∃ (vals : Arr1 ℝ) (vecs : Arr2 ℝ) (σ : Equiv.Perm (Fin s)) (sg : Fin s → ℝ),
      sortedEig eig a b size order = .ok (vals, vecs) ∧ vals.len = size ∧ HasShape vecs s size ∧
      StableSortPerm order s v0.get σ ∧ (∀ j, sg j * sg j = 1) ∧
      (∀ j, 0 ≤ q0.get 0 (σ j) * sg j) ∧
      (∀ j : Fin size, vals.get j = v0.get (σ (Fin.castLE hsize j))) ∧
      ∀ (i : Fin s) (j : Fin size),
        vecs.get i j = q0.get i (σ (Fin.castLE hsize j)) * sg (Fin.castLE hsize j) := by
  subst hv
  obtain ⟨ov, oq, σ, h, hσ, hl, hsh, hov, hoq⟩ :=
    C33_sort_eig v0 q0 v0.len hq (NaNFree.real v0) order
  have e1 : sortedEig eig a b size order = .ok
      (⟨size - 0, fun i => ov.get (0 + i)⟩,
        ⟨oq.nr - 0, size - 0, fun i j =>
          oq.get (0 + i) (0 + j) * NdFloat.signum (oq.get 0 (0 + j))⟩) := by
    unfold sortedEig
    unfold innerEig at hin
    cases b <;> simp only at hin ⊢ <;> rw [hin, ok_bind]
    all_goals
      simp only
      rw [h, ok_bind]
      simp only
      rw [if_neg (by rw [hsh.1]; omega)]
      unfold Arr2.scaleCols Arr1.slice Arr2.slice
      rw [if_pos rfl, ok_bind, if_pos ⟨Nat.zero_le _, by rw [hl]; exact hsize⟩, ok_bind]
      simp only
      rw [if_pos ⟨Nat.zero_le _, le_refl _, Nat.zero_le _, by rw [hsh.2]; exact hsize⟩, ok_bind]
  refine ⟨_, _, σ, fun j => NdFloat.signum (oq.get 0 j), e1, by simp, ⟨by simpa using hsh.1, by simp⟩,
    hσ, ?_, ?_, ?_, ?_⟩
  · intro j
    simp only [real_signum]
    split_ifs <;> norm_num
  · intro j
    rw [← hoq 0 hs j]
    simp only [real_signum]
    split_ifs with h0
    · nlinarith
    · rw [mul_one]; exact not_lt.1 h0
  · intro j
    simp only [Nat.zero_add]
    exact hov (Fin.castLE hsize j)
  · intro i j
    simp only [Nat.zero_add]
    rw [show oq.get i j = _ from hoq i i.2 (Fin.castLE hsize j)]
    rfl

/-- In exact arithmetic `eigh_into` never panics. -/
theorem eighInto_total (fuel : Nat) : EigTotal (eighInto fuel : EigSolver ℝ) := by
  intro s a hs ha
  have := symmetricEig_shape fuel a true (NdFloat.epsilon : ℝ) (ha.1.trans ha.2.symm)
  unfold eighInto
  refine Tot.bind (Q := fun r => r.1.len = a.nr ∧ OptShape r.2 a.nr a.nr ∧ r.2.isSome = true) ?_ ?_
  · refine wp_mono this (fun r h => h) (fun e h => ?_)
    rcases h with h | h
    · exact h
    · exact absurd (safe2x2_real _) h.2
  · rintro ⟨v, q⟩ ⟨h1, h2, h3⟩
    rcases q with _ | q
    · simp at h3
    · have := h2 q rfl
      refine Tot.ok ⟨h1.trans ha.1, NaNFree.real _, ?_⟩
      rw [ha.1] at this
      exact this

/-- `eigh_into` of a `1 × 1` matrix. -/
theorem eighInto_one (fuel : Nat) (a : Arr2 ℝ) (ha : HasShape a 1 1) :
    ∃ v q, eighInto fuel a = .ok (v, q) ∧ v.len = 1 ∧ v.get 0 = a.get 0 0 ∧ HasShape q 1 1 ∧
      q.get 0 0 * q.get 0 0 = 1 := by
  obtain ⟨t, -, -, q, -, hev, -, h1, -⟩ := symmetricEig_cases fuel a true (NdFloat.epsilon : ℝ)
    (by rw [ha.1, ha.2]) (by rw [ha.1])
  have h2 : ∃ r, eighInto fuel a = .ok r := by
    unfold eighInto
    rw [h1 ha.1, ok_bind]
    rcases q with _ | q
    · simp at hev
    · exact ⟨_, rfl⟩
  obtain ⟨⟨v, q⟩, hr⟩ := h2
  have hs : (toMat 1 1 a).IsSymm := by
    ext i j
    rw [Matrix.transpose_apply, Subsingleton.elim i j]
  have h3 := eigh_real fuel a ha hs
  unfold eigh at h3
  rw [hr] at h3
  obtain ⟨σ, h4, h5, h6, h7⟩ := h3
  simp only [Nat.sub_self, Nat.cast_zero, mul_zero, zero_mul] at h7
  have hqq : q.get 0 0 * q.get 0 0 = 1 := by
    have := congrFun (congrFun h6 0) 0
    simpa [Matrix.mul_apply, toMat] using this
  refine ⟨v, q, hr, h4, ?_, h5, hqq⟩
  have h8 := frob_eq_zero (le_antisymm h7 (frob_nonneg _))
  have h9 := congrFun (congrFun h8 0) 0
  have hσ : σ 0 = 0 := Subsingleton.elim _ _
  simp [Matrix.mul_apply, toMat, hσ, Matrix.diagonal] at h9
  have h10 : q.get 0 0 * v.get 0 * q.get 0 0 = v.get 0 := by
    calc q.get 0 0 * v.get 0 * q.get 0 0 = v.get 0 * (q.get 0 0 * q.get 0 0) := by ring
      _ = v.get 0 := by rw [hqq, mul_one]
  linarith

/-- The eigensolver solves `1 × 1` problems. -/
def EigOne (eig : EigSolver ℝ) : Prop :=
  ∀ a, HasShape a 1 1 → ∃ v q, eig a = .ok (v, q) ∧ v.len = 1 ∧ v.get 0 = a.get 0 0 ∧ HasShape q 1 1 ∧
    q.get 0 0 * q.get 0 0 = 1

theorem sortedEig_one {eig : EigSolver ℝ} (he : EigOne eig) (a : Arr2 ℝ) (ha : HasShape a 1 1)
    (order : Order) :
    ∃ v q, sortedEig eig a none 1 order = .ok (v, q) ∧ v.len = 1 ∧
      v.get 0 = a.get 0 0 ∧ HasShape q 1 1 ∧ q.get 0 0 = 1 := by
  obtain ⟨v, q, h1, h2, h3, h4, h5⟩ := he a ha
  obtain ⟨vals, vecs, σ, sg, h6, h7, h8, -, h9, h10, h11, h12⟩ :=
    sortedEig_rule (eig := eig) (a := a) (b := none) (by exact h1) h2 h4 le_rfl le_rfl order
  have hσ : ∀ x, σ x = 0 := fun _ => Subsingleton.elim _ _
  refine ⟨vals, vecs, h6, h7, ?_, h8, ?_⟩
  · have := h11 0
    rw [hσ] at this
    exact this.trans h3
  · have h13 := h12 0 0
    have h14 := h10 0
    have h15 := h9 0
    rw [hσ] at h13 h14
    simp only [Fin.coe_ofNat_eq_mod, Nat.zero_mod] at h13 h14
    have e : Fin.castLE (le_refl 1) (0 : Fin 1) = 0 := rfl
    rw [e] at h13
    rw [h13]
    have h16 : (q.get 0 0 * sg 0) * (q.get 0 0 * sg 0) = 1 := by
      calc (q.get 0 0 * sg 0) * (q.get 0 0 * sg 0) = (q.get 0 0 * q.get 0 0) * (sg 0 * sg 0) := by ring
        _ = 1 := by rw [h5, h15, mul_one]
    nlinarith

theorem normL2_map_range (r : Nat → ℝ) (n : Nat) :
    normL2 ((List.range n).map r) = Real.sqrt (∑ i : Fin n, r i ^ 2) := by
  have h : ∀ n, ((List.range n).map ((fun x => x * x) ∘ r)).sum = ∑ i ∈ Finset.range n, r i ^ 2 := by
    intro n
    induction n with
    | zero => simp
    | succ n ih =>
      rw [List.range_succ, List.map_append, List.sum_append, ih, Finset.sum_range_succ]
      simp [pow_two]
  unfold normL2
  rw [foldl_add_eq, zero_add, real_sqrt, List.map_map, h, Finset.sum_range]

/-- A run of `lobpcg` with one column that stops at the first iterate. -/
theorem lobpcgRun_one_of {n : Nat} {eig : EigSolver ℝ} (he : EigOne eig) {P : LobParams ℝ} {x0 x1 x2 l ax : Arr2 ℝ}
    {cholYY : Option (Arr2 ℝ)} {maxiter : Nat} (hn : 1 ≤ n) (hx0 : HasShape x0 n 1)
    (hc : (P.y = none ∧ cholYY = none) ∨ ∃ y yy c, P.y = some y ∧ y.t.dot y = .ok yy ∧
      cholesky yy = .ok c ∧ cholYY = some c)
    (h1 : P.constrain cholYY x0 = .ok x1) (h2 : orthonormalize x1 = .ok (x2, l))
    (s2 : HasShape x2 n 1) (h3 : P.a 0 x2 = .ok ax) (s3 : HasShape ax n 1)
    (hstop : maxiter = 0 ∨ Real.sqrt (∑ i : Fin n, (ax.get i 0 -
      (∑ k : Fin n, x2.get k 0 * ax.get k 0) * x2.get i 0) ^ 2) ≤ P.tol) :
    ∃ b it, lobpcgRun eig P x0 maxiter = .ok (.ok b, [it]) ∧ it.gram = none ∧ it.pairs = b ∧
      b.eigvals.len = 1 ∧ b.eigvals.get 0 = ∑ k : Fin n, x2.get k 0 * ax.get k 0 ∧
      HasShape b.eigvecs n 1 ∧ (∀ i : Fin n, b.eigvecs.get i 0 = x2.get i 0) ∧
      b.rnorm = [Real.sqrt (∑ i : Fin n, (ax.get i 0 -
        (∑ k : Fin n, x2.get k 0 * ax.get k 0) * x2.get i 0) ^ 2)] := by
  generalize hμ : (∑ k : Fin n, x2.get k 0 * ax.get k 0) = μ at hstop ⊢
  generalize hρ : Real.sqrt (∑ i : Fin n, (ax.get i 0 - μ * x2.get i 0) ^ 2) = ρ at hstop ⊢
  obtain ⟨xax, h4, s4⟩ := dot_shape (shape_t s2) s3
  have e4 : xax.get 0 0 = μ := by
    obtain ⟨-, rfl⟩ := Arr2.dot_inv h4
    rw [← hμ]
    simp only [dotTo_eq, Arr2.t]
    rw [s2.1, Finset.sum_range]
  obtain ⟨v, q, h5, lv, ev, sq, eq⟩ := sortedEig_one he xax s4 P.order
  obtain ⟨x, h6, s6⟩ := dot_shape s2 sq
  obtain ⟨ax', h7, s7⟩ := dot_shape s3 sq
  have e6 : ∀ i : Fin n, x.get i 0 = x2.get i 0 := by
    intro i
    obtain ⟨-, rfl⟩ := Arr2.dot_inv h6
    simp [dotTo_eq, s2.2, eq]
  have e7 : ∀ i : Fin n, ax'.get i 0 = ax.get i 0 := by
    intro i
    obtain ⟨-, rfl⟩ := Arr2.dot_inv h7
    simp [dotTo_eq, s3.2, eq]
  have h3' : P.apply 0 x2 = .ok ax := by unfold LobParams.apply; rw [h3]; rfl
  have h5' : sortedEig eig xax none x0.nc P.order = .ok (v, q) := by rw [hx0.2]; exact h5
  -- the residual
  generalize hst : (⟨v, x, ax', List.replicate x0.nc true, none, x0.nc, Arr2.eye x0.nc x0.nc, none, true,
      min (x0.nr * 10) maxiter, 1, none, []⟩ : LobState ℝ) = st
  have hres : ∃ r, lobResidual st = .ok (r, [ρ]) := by
    subst hst
    obtain ⟨lx, h8, s8⟩ := dot_shape s6 (⟨lv, lv⟩ : HasShape (Arr2.fromDiag v) 1 1)
    obtain ⟨r, h9, s9⟩ := sub_shape s7 s8
    refine ⟨r, ?_⟩
    unfold lobResidual
    simp only
    rw [h8, ok_bind, h9, ok_bind]
    have hnorm : Real.sqrt (∑ i : Fin n, r.get i 0 ^ 2) = ρ := by
      rw [← hρ]
      refine congrArg Real.sqrt (Finset.sum_congr rfl fun i _ => ?_)
      obtain ⟨-, rfl⟩ := Arr2.dot_inv h8
      obtain ⟨-, -, rfl⟩ := Arr2.sub_inv h9
      simp [dotTo_eq, s6.2, e6, e7, Arr2.fromDiag, ev, e4, mul_comm]
    rw [s9.2, s9.1]
    simp only [List.range_one, List.map_cons, List.map_nil]
    rw [normL2_map_range (fun i => r.get i 0), hnorm]
  obtain ⟨r, hr⟩ := hres
  have hloop : ∃ st', lobLoop eig P cholYY (min (x0.nr * 10) maxiter) st = .ok (st', none) ∧
      st'.best = some ⟨st.lambda, st.x, [ρ]⟩ ∧
      ∃ m, st'.hist = [⟨⟨st.lambda, st.x, [ρ]⟩, m, none⟩] := by
    have hcond : ∀ m : List Bool, m = updateMask P.tol [ρ] st.mask → m.count true = 0 ∨ st.iter = 0 := by
      rintro m rfl
      rcases hstop with h | h
      · right; subst hst; simp [h]
      · left
        subst hst
        have hlt : (NdFloat.lt P.tol ρ : Bool) = false := by
          rw [Bool.eq_false_iff, ne_eq, real_lt, decide_eq_true_eq]; exact not_lt.2 h
        simp only [updateMask, hx0.2, List.replicate_one, List.zipWith_cons_cons, hlt,
          List.zipWith_nil_left, Bool.false_and]
        rfl
    have hb0 : st.best = none := by subst hst; rfl
    have hh0 : st.hist = [] := by subst hst; rfl
    have hg0 : st.gram = none := by subst hst; rfl
    unfold lobLoop lobHead
    rw [hr, ok_bind, ok_bind]
    simp only
    rw [if_pos (hcond _ rfl)]
    exact ⟨_, rfl, by rw [hb0]; rfl, _, by simp only; rw [hh0, hg0]; rfl⟩
  obtain ⟨st', hl, hb, m, hh⟩ := hloop
  refine ⟨⟨st.lambda, st.x, [ρ]⟩, ⟨⟨st.lambda, st.x, [ρ]⟩, m, none⟩, ?_, rfl, rfl, ?_, ?_, ?_, ?_, rfl⟩
  · unfold lobpcgRun
    simp only
    rw [if_neg (by rw [hx0.1, hx0.2]; omega)]
    rcases hc with ⟨hy, rfl⟩ | ⟨y, yy, c, hy, hyy, hcc, rfl⟩
    · rw [hy]
      simp only [ok_bind]
      rw [h1, ok_bind, h2]
      simp only [catchM, ok_bind]
      rw [h3', ok_bind, h4, ok_bind, h5']
      simp only [ok_bind]
      rw [h6, ok_bind, h7, ok_bind, hst, hl, ok_bind]
      simp only
      rw [hb]
      simp only
      rw [hh]
    · rw [hy]
      simp only
      rw [hyy, ok_bind, hcc]
      simp only [unwrapM, ok_bind]
      rw [h1, ok_bind, h2]
      simp only [catchM, ok_bind]
      rw [h3', ok_bind, h4, ok_bind, h5']
      simp only [ok_bind]
      rw [h6, ok_bind, h7, ok_bind, hst, hl, ok_bind]
      simp only
      rw [hb]
      simp only
      rw [hh]
  · subst hst; exact lv
  · subst hst; exact ev.trans e4
  · subst hst; exact s6
  · subst hst; exact e6

theorem lobpcgRun_one {n : Nat} (fuel : Nat) {P : LobParams ℝ} {x0 x1 x2 l ax : Arr2 ℝ}
    {cholYY : Option (Arr2 ℝ)} {maxiter : Nat} (hn : 1 ≤ n) (hx0 : HasShape x0 n 1)
    (hc : (P.y = none ∧ cholYY = none) ∨ ∃ y yy c, P.y = some y ∧ y.t.dot y = .ok yy ∧
      cholesky yy = .ok c ∧ cholYY = some c)
    (h1 : P.constrain cholYY x0 = .ok x1) (h2 : orthonormalize x1 = .ok (x2, l))
    (s2 : HasShape x2 n 1) (h3 : P.a 0 x2 = .ok ax) (s3 : HasShape ax n 1)
    (hstop : maxiter = 0 ∨ Real.sqrt (∑ i : Fin n, (ax.get i 0 -
      (∑ k : Fin n, x2.get k 0 * ax.get k 0) * x2.get i 0) ^ 2) ≤ P.tol) :
    ∃ b it, lobpcgRun (eighInto fuel) P x0 maxiter = .ok (.ok b, [it]) ∧ it.pairs = b ∧
      b.eigvals.len = 1 ∧ b.eigvals.get 0 = ∑ k : Fin n, x2.get k 0 * ax.get k 0 ∧
      HasShape b.eigvecs n 1 ∧ (∀ i : Fin n, b.eigvecs.get i 0 = x2.get i 0) ∧
      b.rnorm = [Real.sqrt (∑ i : Fin n, (ax.get i 0 -
        (∑ k : Fin n, x2.get k 0 * ax.get k 0) * x2.get i 0) ^ 2)] := by
  obtain ⟨b, it, h, -, h'⟩ := lobpcgRun_one_of (eighInto_one fuel) hn hx0 hc h1 h2 s2 h3 s3 hstop
  exact ⟨b, it, h, h'⟩

end LinfaLinalg
