import Verif.Proofs.EighReal

/-! # The pairs returned by `eigh` on `2 × 2` matrices, over the reals -/

namespace LinfaLinalg

open Matrix

/-- The first diagonal entry survives the reduction to tridiagonal form. -/
theorem symTridiagonal_corner {n : Nat} {a : Arr2 ℝ} (ha : HasShape a n n) (hn : 1 ≤ n)
    {t : TridiagonalDecomp ℝ} (ht : symTridiagonal a = .ok t) :
    t.diagMatrix.get 0 0 = a.get 0 0 := by
  have hw : Succeeds (forRange 0 (n - 1)
      (a, (Arr1.zeros (n - 1) : Arr1 ℝ), (Arr1.zeros (n - 1) : Arr1 ℝ))
      fun i (a, off, p) => tridiagStep i a off p)
      (fun s : Arr2 ℝ × Arr1 ℝ × Arr1 ℝ => (HasShape s.1 n n ∧ s.2.1.len = n - 1 ∧
        s.2.2.len = n - 1) ∧ s.1.get 0 0 = a.get 0 0) := by
    refine wp_forRange (fun _ (s : Arr2 ℝ × Arr1 ℝ × Arr1 ℝ) => (HasShape s.1 n n ∧
      s.2.1.len = n - 1 ∧ s.2.2.len = n - 1) ∧ s.1.get 0 0 = a.get 0 0) (Nat.zero_le _)
      ⟨⟨ha, rfl, rfl⟩, rfl⟩ ?_
    rintro i ⟨b, off, p⟩ _ hi ⟨⟨h1, h2, h3⟩, h4⟩
    obtain ⟨b', d, p', w, hstep, hp', ts⟩ := tridiagStep_real i b off p hi h1 h2 h3
    exact wp_of_ok hstep ⟨⟨ts.shape, h2, hp'⟩, (ts.frame 0 0 (Or.inr (Nat.zero_le _))).trans h4⟩
  obtain ⟨⟨b, off, p⟩, h, -, h4⟩ := succeeds_iff.1 hw
  unfold symTridiagonal at ht
  rw [checkSquare_ok (by rw [ha.1, ha.2])] at ht
  simp only [ok_bind] at ht
  rw [ha.1, if_neg (by omega), h] at ht
  simp only [ok_bind, Except.ok.injEq] at ht
  rw [← ht]
  exact h4

/-- A tridiagonal `2 × 2` matrix similar to `A` with the same first entry. -/
theorem tridiag_two {A Q : Matrix (Fin 2) (Fin 2) ℝ} {d e : Nat → ℝ} (hA : A.IsSymm)
    (hQ : Qᵀ * Q = 1) (h : Q * tridiag 2 d e * Qᵀ = A) (h0 : d 0 = A 0 0) :
    d 1 = A 1 1 ∧ |e 0| = |A 1 0| := by
  have htr : A.trace = (tridiag 2 d e).trace := by
    rw [← h, Matrix.trace_mul_comm, ← Matrix.mul_assoc, hQ, Matrix.one_mul]
  have hdet : A.det = (tridiag 2 d e).det := by
    rw [← h, Matrix.det_mul, Matrix.det_mul, mul_right_comm, ← Matrix.det_mul,
      mul_eq_one_comm.1 hQ, Matrix.det_one, one_mul]
  have hs : A 0 1 = A 1 0 := hA.apply 1 0
  simp only [Matrix.trace_fin_two, Matrix.det_fin_two, tridiag, Matrix.of_apply] at htr hdet
  simp at htr hdet
  have h1 : d 1 = A 1 1 := by linarith
  refine ⟨h1, ?_⟩
  rw [h0, h1, hs] at hdet
  rw [← sq_eq_sq_iff_abs_eq_abs]
  linear_combination hdet

/-- The main loop on a `2 × 2` problem that is scaled to one. -/
theorem eigLoop_pairs {A0 : Matrix (Fin 2) (Fin 2) ℝ} {eps : ℝ} (heps : 0 ≤ eps) (fuel : Nat)
    {st : EigState ℝ} {Q : Arr2 ℝ} (hsh : EigShape 2 eps st) (hq : st.q = some Q)
    (sQ : HasShape Q 2 2) (hend : st.end = st.start → st.end = 0)
    (hap : EigApx 2 A0 eps st.diag.get (eff st.off st.end) (toMat 2 2 Q) (Equiv.refl _))
    (hbig : st.end ≠ st.start →
      1 ≤ |st.diag.get 0| ∨ 1 ≤ |st.diag.get 1| ∨ eps < |st.off.get 0|) :
    wp (eigLoop eps fuel st) (fun st' => ∃ Q', st'.q = some Q' ∧ HasShape Q' 2 2 ∧
      EigApx 2 A0 eps st'.diag.get (fun _ => 0) (toMat 2 2 Q') (Equiv.refl _))
      (fun e => e = .fuel) := by
  have hz : ∀ off : Arr1 ℝ, eff off 0 = fun _ => 0 := fun off => by
    funext k; rw [eff, if_neg (by omega)]
  by_cases hne : st.end = st.start
  · have : eigLoop eps fuel st = .ok st := by
      cases fuel <;> (unfold eigLoop; rw [if_pos hne])
    rw [this]
    rw [hend hne, hz] at hap
    exact ⟨Q, hq, sQ, hap⟩
  have hle := hsh.le
  have hlt := hsh.lt
  have hs0 : st.start = 0 := by omega
  have he1 : st.end = 1 := by omega
  cases fuel with
  | zero =>
    unfold eigLoop
    rw [if_neg hne]
    rfl
  | succ fuel =>
    unfold eigLoop
    rw [if_neg hne, wp_bind]
    refine wp_conseq (wp_eigStep (E := fun e => e = .fuel) hsh hne (fun m => m.end = 0 ∧
      ∃ Q', m.q = some Q' ∧ HasShape Q' 2 2 ∧
        EigApx 2 A0 eps m.diag.get (fun _ => 0) (toMat 2 2 Q') (Equiv.refl _)) ?_ ?_) ?_
    · intro hs
      obtain ⟨l0, l1, hc, c1, c2, -, -⟩ := compute2x2_real (st.diag.get st.start)
        (st.off.get st.start) (st.diag.get (st.start + 1))
      rw [eig2x2_eq hsh hs, hc]
      simp only
      have hb := bigOff_real.1 (hsh.big (fun h => hne h.symm))
      rw [hs0] at c1 c2 ⊢
      rw [he1] at hb hap
      have hB := hbig hne
      simp only [Nat.sub_self, Nat.zero_add] at hb c1 c2 ⊢
      have ho : st.off.get 0 ≠ 0 := by
        intro h
        rw [h, abs_zero] at hb
        have : 0 ≤ eps * (|st.diag.get 1| + |st.diag.get 0|) := by positivity
        linarith
      have hrp : 0 < (l0 - st.diag.get 1) * (l0 - st.diag.get 1) + st.off.get 0 * st.off.get 0 := by
        have := mul_self_pos.2 ho
        nlinarith [mul_self_nonneg (l0 - st.diag.get 1)]
      obtain ⟨r, hr⟩ : ∃ r, r = Real.sqrt ((l0 - st.diag.get 1) * (l0 - st.diag.get 1) +
        st.off.get 0 * st.off.get 0) := ⟨_, rfl⟩
      have hr0 : 0 < r := by rw [hr]; exact Real.sqrt_pos.2 hrp
      have hrr : r * r = (l0 - st.diag.get 1) * (l0 - st.diag.get 1) +
          st.off.get 0 * st.off.get 0 := by rw [hr]; exact Real.mul_self_sqrt hrp.le
      obtain ⟨hW, hT⟩ := two_conj (n := 2) (s := 0) (by omega) rfl rfl rfl (fun h => absurd rfl h)
        hr0 hrr c1 c2
      cases hn : GivensRotation.tryNew (l0 - st.diag.get 1) (st.off.get 0) eps with
      | none =>
        exfalso
        have hsmall := tryNew_real_none hn
        rw [← hr] at hsmall
        have hor : |st.off.get 0| ≤ r := by
          rw [hr]
          apply Real.le_sqrt_of_sq_le
          rw [sq_abs]
          nlinarith [mul_self_nonneg (l0 - st.diag.get 1)]
        have hpos : 0 < eps := hr0.trans_le hsmall
        have hlt1 : |st.diag.get 1| + |st.diag.get 0| < 1 := by
          by_contra hge
          have := mul_le_mul_of_nonneg_left (not_lt.1 hge) hpos.le
          linarith
        have p0 := abs_nonneg (st.diag.get 0)
        have p1 := abs_nonneg (st.diag.get 1)
        rcases hB with h | h | h <;> linarith
      | some p =>
        obtain ⟨rot, nn⟩ := p
        obtain ⟨-, t2, t3, t4, -⟩ := tryNew_real heps hn
        rw [← hr] at t2
        rw [t2] at t3 t4
        refine ⟨by simp only [he1], rotCols rot 0 1 Q, by simp only [hq, Option.map_some], sQ, ?_⟩
        rw [toMat_rotCols _ _ sQ (by omega) (by omega) (by omega), t3, t4]
        have := hap.conj heps hW (by rfl) hT (cnt_mono fun k _ hk => absurd (by
          rw [eff, if_neg (by omega)]) hk) (fun k hk => absurd rfl hk)
        rw [rotM_transpose _ _ _ (by omega), neg_neg, hz] at this
        exact this
    · intro r e hs; omega
    · rintro st' ⟨h1, mid, ⟨hm0, Q', f1, f2, f3⟩, -, -, hd, hq', ds⟩
      have d1 := ds.le
      have d2 : st'.end = 0 := by omega
      have d3 := ds.zero d2
      have : eigLoop eps fuel st' = .ok st' := by
        cases fuel <;> (unfold eigLoop; rw [if_pos (by omega)])
      rw [this]
      exact ⟨Q', hq'.trans f1, f2, by rw [hd]; exact f3⟩

/-- On `2 × 2` matrices `symmetric_eig` pairs values and vectors correctly. -/
theorem symmetricEig_pairs (fuel : Nat) (a : Arr2 ℝ) {eps : ℝ} (heps : 0 ≤ eps) (heps1 : eps < 1)
    (ha : HasShape a 2 2) (hs : (toMat 2 2 a).IsSymm) :
    wp (symmetricEig fuel a true eps) (fun r => ∃ Q : Arr2 ℝ,
      r.2 = some Q ∧ HasShape Q 2 2 ∧
      frob (toMat 2 2 a - toMat 2 2 Q * (Matrix.diagonal fun i : Fin 2 => r.1.get i) *
        (toMat 2 2 Q)ᵀ) ≤ 2 * eps * frob (toMat 2 2 a)) (fun e => e = .fuel) := by
  obtain ⟨s1, s2, s3, s4⟩ := scaleDown_real a ha (by omega) (by omega)
  have hsym : (toMat 2 2 (a.scaleDown a.amax)).IsSymm := by
    rw [s4, Matrix.IsSymm, Matrix.transpose_smul, hs.eq]
  have hsq : a.nr = a.nc := by rw [ha.1, ha.2]
  obtain ⟨t, ht, hsh, q, hqs, hev, hgen, -, h2⟩ := symmetricEig_cases fuel a true eps hsq
    (by rw [ha.1]; omega)
  rw [ha.1] at hsh hqs h2
  obtain ⟨t', ht', htri⟩ := symTridiagonal_real (a.scaleDown a.amax) s1 (by omega) hsym
  rw [ht, Except.ok.injEq] at ht'
  subst ht'
  obtain ⟨Q, hQ, sQ, oQ, eQ⟩ := htri.final (by omega)
  obtain ⟨x, rfl⟩ := Option.isSome_iff_exists.1 hev
  have := hgen x rfl
  rw [hQ, Except.ok.injEq] at this
  subst this
  have hcor := symTridiagonal_corner s1 (by omega) ht
  obtain ⟨hd1, ho⟩ := tridiag_two hsym oQ eQ hcor
  have e1 : tridiag 2 t.intoDiagonals.1.get (eff t.intoDiagonals.2 1) =
      tridiag 2 (fun i => t.diagMatrix.get i i) (fun i => |t.offDiagonal.get i|) := by
    ext i j
    simp only [tridiag, Matrix.of_apply, eff]
    have := i.2
    have := j.2
    split_ifs <;> first | omega | rfl
  have hap : EigApx 2 (toMat 2 2 (a.scaleDown a.amax)) eps t.intoDiagonals.1.get
      (eff t.intoDiagonals.2 1) (toMat 2 2 Q) (Equiv.refl _) := by
    have e2 : ∀ X : Matrix (Fin 2) (Fin 2) ℝ,
        X.submatrix (Equiv.refl (Fin 2)) (Equiv.refl (Fin 2)) = X := fun X => rfl
    refine ⟨oQ, ?_, ?_, Swaps.refl _ _ _, ?_⟩
    · rw [e1, e2, eQ, sub_self, frob_zero]
      have := frob_nonneg (toMat 2 2 (a.scaleDown a.amax))
      positivity
    · rw [e1, ← eQ, frob_mul_orth (by rw [Matrix.transpose_transpose]; exact oQ), frob_orth_mul oQ]
    · rw [e1, ← eQ, Matrix.trace_mul_comm, ← Matrix.mul_assoc, oQ, Matrix.one_mul]
  obtain ⟨off, s, e, -, ds, hei, heq⟩ := h2 (by omega)
  rw [heq, wp_bind]
  have hle := ds.le
  have hoff : ∀ k, off.get k = if k + 1 = s then 0 else t.intoDiagonals.2.get k := ds.get
  refine wp_conseq (eigLoop_pairs heps fuel hei rfl sQ ?_ (hap.delim heps (by omega) ds) ?_) ?_
  · intro h
    by_contra h0
    have := ds.lt h0
    simp only at h
    omega
  · intro hne
    simp only at hne ⊢
    have he0 : e ≠ 0 := fun h => hne (by rw [h, ds.zero h])
    have hlt := ds.lt he0
    have hs0 : s = 0 := by omega
    rw [hoff 0, if_neg (by omega)]
    have hA : toMat 2 2 (a.scaleDown a.amax) ≠ 0 := by
      intro hA
      have hb := bigOff_real.1 (ds.big he0)
      have e0 : e - 1 = 0 := by omega
      have g : t.intoDiagonals.2.get 0 = 0 := by
        have : |(|t.offDiagonal.get 0|)| = |(toMat 2 2 (a.scaleDown a.amax)) 1 0| := ho
        rw [hA, Matrix.zero_apply, abs_zero, abs_eq_zero] at this
        exact this
      rw [e0, g, abs_zero] at hb
      have : 0 ≤ eps * (|t.intoDiagonals.1.get (0 + 1)| + |t.intoDiagonals.1.get 0|) := by
        positivity
      linarith
    have hone : ∃ i j : Fin 2, |toMat 2 2 (a.scaleDown a.amax) i j| = 1 := by
      obtain ⟨-, i, j, hi, hj, hij⟩ := amax_real a (by rw [ha.1]; omega) (by rw [ha.2]; omega)
      rw [ha.1] at hi
      rw [ha.2] at hj
      refine ⟨⟨i, hi⟩, ⟨j, hj⟩, ?_⟩
      have hne0 : a.amax ≠ 0 := by
        intro h0
        apply hA
        rw [s4, h0]
        ext k l
        have := (amax_real a (by rw [ha.1]; omega) (by rw [ha.2]; omega)).1 k l
          (by rw [ha.1]; exact k.2) (by rw [ha.2]; exact l.2)
        rw [h0] at this
        have := abs_nonpos_iff.1 this
        simp [this]
      have hpos := lt_of_le_of_ne (amax_nonneg a (by rw [ha.1]; omega) (by rw [ha.2]; omega))
        (Ne.symm hne0)
      have := congrFun (congrFun s2 ⟨i, hi⟩) ⟨j, hj⟩
      simp only [Matrix.smul_apply, smul_eq_mul, toMat_apply] at this
      rw [this, abs_mul, abs_of_pos hpos] at hij
      rw [toMat_apply]
      exact mul_left_cancel₀ hne0 (by rw [hij, mul_one])
    have g0 : t.intoDiagonals.1.get 0 = toMat 2 2 (a.scaleDown a.amax) 0 0 := hcor
    have g1 : t.intoDiagonals.1.get 1 = toMat 2 2 (a.scaleDown a.amax) 1 1 := hd1
    have g2 : |t.intoDiagonals.2.get 0| = |toMat 2 2 (a.scaleDown a.amax) 1 0| := ho
    have g3 : toMat 2 2 (a.scaleDown a.amax) 0 1 = toMat 2 2 (a.scaleDown a.amax) 1 0 :=
      hsym.apply 1 0
    rw [g0, g1, g2]
    obtain ⟨i, j, hij⟩ := hone
    fin_cases i <;> fin_cases j <;> simp only [Fin.zero_eta, Fin.mk_one] at hij
    · exact Or.inl hij.ge
    · right; right; rw [← g3, hij]; exact heps1
    · right; right; rw [hij]; exact heps1
    · exact Or.inr (Or.inl hij.ge)
  · rintro st ⟨Q', f1, f2, f3⟩
    refine ⟨Q', f1, f2, ?_⟩
    have := f3.unscale ha (by omega) (fun _ => rfl)
    simpa using this

end LinfaLinalg
