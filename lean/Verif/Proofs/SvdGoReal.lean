import Verif.Proofs.SvdFlags
import Verif.Proofs.ScaleReal

/-! # `svd` over the reals: the whole function -/

namespace LinfaLinalg

open Matrix

/-- `fix_signs` does nothing when no entry is negative. -/
theorem fixSigns_nop {α : Type} [Zero α] [One α] [Add α] [Sub α] [Mul α] [Div α] [Neg α] [NdFloat α]
    {d : Nat} (dg : Arr1 α) (u : Option (Arr2 α)) (hd : dg.len = d)
    (h : ∀ k, k < d → NdFloat.isSignNeg (dg.get k) = false) : fixSigns d dg u = .ok (dg, u) := by
  have : Succeeds (fixSigns d dg u) fun p => p = (dg, u) := by
    unfold fixSigns
    refine wp_forRange (fun _ (p : Arr1 α × Option (Arr2 α)) => p = (dg, u)) (by omega) rfl ?_
    rintro i p _ hi rfl
    simp only
    rw [Arr1.idx_ok (by omega)]
    simp only [ok_bind, h i hi]
    rfl
  obtain ⟨p, e, rfl⟩ := succeeds_iff.1 this
  exact e

/-- The matrix that is bidiagonalized to an upper bidiagonal one: `A / amax` or its transpose. -/
noncomputable def svdX0 (p d : Nat) (up : Bool) (a : Arr2 ℝ) : Matrix (Fin p) (Fin d) ℝ :=
  if up then toMat p d (a.scaleDown a.amax) else (toMat d p (a.scaleDown a.amax))ᵀ

/-- The state in which `svd` enters the iteration. -/
structure SvdInit (p d : Nat) (up : Bool) (eps : ℝ) (a : Arr2 ℝ) : Prop where
  hup : decide (a.nc ≤ a.nr) = up
  rows : rowsOf p d up = a.nr
  cols : colsOf p d up = a.nc
  hmin : d = Min.min a.nr a.nc
  dpos : d ≠ 0
  x0 : svdX0 p d up a = 0 ∨ 1 ≤ frob (svdX0 p d up a)
  ok : ∀ b U Vt, bidiagonal (a.scaleDown a.amax) = .ok b → b.generateU = .ok U →
    b.generateVt = .ok Vt → SvdOk (svdX0 p d up a) up eps ⟨b.intoDiagonals.1, b.intoDiagonals.2,
      some U, some Vt⟩ ∧ ∀ k, k < d → 0 ≤ b.intoDiagonals.1.get k

theorem svdInit (a : Arr2 ℝ) (eps : ℝ) (heps : 0 ≤ eps) (h1 : a.nr ≠ 0) (h2 : a.nc ≠ 0) :
    ∃ p d up, SvdInit p d up eps a := by
  have ha : HasShape a a.nr a.nc := ⟨rfl, rfl⟩
  obtain ⟨hsh, -, hX, -⟩ := scaleDown_real a ha (by omega) (by omega)
  obtain ⟨b', U', Vt', e1, e2, e3, up, l1, l2, sU, sV, oU, oV, he⟩ :=
    bidiagonal_real (a.scaleDown a.amax) hsh (by omega)
  by_cases h : a.nc ≤ a.nr
  · have hmin : min a.nr a.nc = a.nc := min_eq_right h
    have hX0 : svdX0 a.nr a.nc true a = toMat a.nr a.nc (a.scaleDown a.amax) := if_pos rfl
    refine ⟨a.nr, a.nc, true, ⟨by simp [h], rfl, rfl, hmin.symm, h2, by rw [hX0]; exact hX, ?_⟩⟩
    intro b U Vt f1 f2 f3
    rw [e1] at f1; cases f1
    rw [e2] at f2; cases f2
    rw [e3] at f3; cases f3
    rw [hmin] at oU oV he
    rw [BidiagonalDecomp.bMat, if_pos (by rw [up]; simp [h])] at he
    refine ⟨?_, fun k _ => abs_nonneg _⟩
    intro U V hU hV
    cases hU; cases hV
    have hB : bidiag a.nc (fun i => |b'.diagonal.get i|) (fun i => |b'.offDiagonal.get i|) =
      biD a.nc b'.intoDiagonals.1.get b'.intoDiagonals.2.get := rfl
    rw [hB] at he
    have hL : leftOf a.nr a.nc true U' Vt' = toMat a.nr a.nc U' := rfl
    have hR : rightOf a.nc true U' Vt' = (toMat a.nc a.nc Vt')ᵀ := rfl
    rw [hL, hR, hX0]
    refine ⟨oU, by rw [transpose_transpose]; exact oV, ?_, ?_⟩
    · rw [transpose_transpose, he, sub_self, frob_zero]
      have := eta_nonneg (X0 := svdX0 a.nr a.nc true a) heps
      rw [hX0] at this
      unfold budget
      positivity
    · rw [← he, frob_mul_orth oV, frob_orth_mul oU]
  · have h' : a.nr ≤ a.nc := by omega
    have hmin : min a.nr a.nc = a.nr := min_eq_left h'
    have hX0 : svdX0 a.nc a.nr false a = (toMat a.nr a.nc (a.scaleDown a.amax))ᵀ :=
      if_neg (by simp)
    refine ⟨a.nc, a.nr, false, ⟨by simp [h], rfl, rfl, hmin.symm, h1, ?_, ?_⟩⟩
    · rw [hX0, frob_transpose]
      rcases hX with hX | hX
      · left; rw [hX]; rfl
      · right; exact hX
    intro b U Vt f1 f2 f3
    rw [e1] at f1; cases f1
    rw [e2] at f2; cases f2
    rw [e3] at f3; cases f3
    rw [hmin] at oU oV he
    rw [BidiagonalDecomp.bMat, if_neg (by rw [up]; simp [h])] at he
    refine ⟨?_, fun k _ => abs_nonneg _⟩
    intro U V hU hV
    cases hU; cases hV
    have hB : bidiag a.nr (fun i => |b'.diagonal.get i|) (fun i => |b'.offDiagonal.get i|) =
      biD a.nr b'.intoDiagonals.1.get b'.intoDiagonals.2.get := rfl
    rw [hB] at he
    have hL : leftOf a.nc a.nr false U' Vt' = (toMat a.nr a.nc Vt')ᵀ := rfl
    have hR : rightOf a.nr false U' Vt' = toMat a.nr a.nr U' := rfl
    have he' : (toMat a.nr a.nc (a.scaleDown a.amax))ᵀ = (toMat a.nr a.nc Vt')ᵀ *
        biD a.nr b'.intoDiagonals.1.get b'.intoDiagonals.2.get * (toMat a.nr a.nr U')ᵀ := by
      rw [← he, transpose_mul, transpose_mul, transpose_transpose, Matrix.mul_assoc]
    have oV' : ((toMat a.nr a.nc Vt')ᵀ)ᵀ * (toMat a.nr a.nc Vt')ᵀ = 1 := by
      rw [transpose_transpose]; exact oV
    rw [hL, hR, hX0]
    refine ⟨oV', oU, ?_, ?_⟩
    · rw [← he', sub_self, frob_zero]
      have := eta_nonneg (X0 := svdX0 a.nc a.nr false a) heps
      rw [hX0] at this
      unfold budget
      positivity
    · rw [he', frob_mul_orth (by rw [transpose_transpose]; exact oU), frob_orth_mul oV']

/-- The result of `svd` with both factors requested. -/
def SvdResult (m n : Nat) (a : Arr2 ℝ) (eps : ℝ) (r : Option (Arr2 ℝ) × Arr1 ℝ × Option (Arr2 ℝ)) :
    Prop :=
  ∃ U V, r.1 = some U ∧ r.2.2 = some V ∧ HasShape U m (min m n) ∧ HasShape V (min m n) n ∧
    r.2.1.len = min m n ∧ (∀ k, k < min m n → 0 ≤ r.2.1.get k) ∧
    (toMat m (min m n) U)ᵀ * toMat m (min m n) U = 1 ∧
    toMat (min m n) n V * (toMat (min m n) n V)ᵀ = 1 ∧
    frob (toMat m n a - toMat m (min m n) U * Matrix.diagonal (toVec (min m n) r.2.1) *
      toMat (min m n) n V) ≤ 2 * (min m n - 1 : Nat) * eps * frob (toMat m n a) ∧
    frob (Matrix.diagonal (toVec (min m n) r.2.1)) ≤ frob (toMat m n a)

theorem svdGo_real_aux {m n p d : Nat} (fuel : Nat) (a : Arr2 ℝ) (eps : ℝ) (ha : HasShape a m n)
    (heps : 0 ≤ eps) (up : Bool) (hi : SvdInit p d up eps a) :
    wp (svdGo fuel a true true eps) (SvdResult m n a eps) (fun f => f = .fuel) := by
  have h1 : a.nr ≠ 0 := by have := hi.hmin; have := hi.dpos; omega
  have h2 : a.nc ≠ 0 := by have := hi.hmin; have := hi.dpos; omega
  obtain ⟨b, U, Vt, e1, e2, e3, -, hs, he⟩ := svdGo_eq a h1 h2
  rw [he]
  simp only [if_true]
  obtain ⟨ok, nn⟩ := hi.ok b U Vt e1 e2 e3
  have hs' := hs true true
  simp only [if_true] at hs'
  rw [hi.hup, ← hi.hmin]
  rw [← hi.hmin, ← hi.rows, ← hi.cols] at hs'
  have hit := svdIter_real fuel heps hi.x0 hi.dpos hs' ok nn
  rw [wp_bind] at hit ⊢
  refine wp_conseq hit ?_
  rintro ⟨s, start, e⟩ hl
  simp only at hl ⊢
  rw [wp_bind]
  refine wp_conseq hl ?_
  rintro st ⟨sh, ok1, nn1, off0⟩
  obtain ⟨-, hamax, -, -⟩ := scaleDown_real a (⟨rfl, rfl⟩ : HasShape a a.nr a.nc) (by omega) (by omega)
  have hA : 0 ≤ a.amax := amax_nonneg a (by omega) (by omega)
  rw [fixSigns_nop _ _ (by exact sh.dlen) (by
    intro k hk
    have := mul_nonneg (nn1 k hk) hA
    simp only [Arr1.map, real_isSignNeg, decide_eq_false_iff_not, not_lt]
    exact this)]
  obtain ⟨U1, hU1⟩ := Option.isSome_iff_exists.1 sh.hu
  obtain ⟨V1, hV1⟩ := Option.isSome_iff_exists.1 sh.hv
  have fac := ok1 U1 V1 hU1 hV1
  have sU := sh.u U1 hU1
  have sV := sh.vt V1 hV1
  obtain ⟨rfl, rfl⟩ := ha
  have hdm := hi.hmin
  simp only [ok_bind, wp_ok]
  rw [hi.rows] at sU
  rw [hi.cols] at sV
  refine ⟨U1, V1, hU1, hV1, hdm ▸ sU, hdm ▸ sV, hdm ▸ sh.dlen, ?_, ?_, ?_, ?_⟩
  · intro k hk
    exact mul_nonneg (nn1 k (by omega)) hA
  · -- `U` is orthonormal
    rw [← hdm]
    obtain ⟨oL, oR, -, -⟩ := fac
    have hr := hi.rows
    cases up
    · simp only [rowsOf, Bool.false_eq_true, if_false] at hr
      rw [← hr]; exact oR
    · simp only [rowsOf, if_true] at hr
      rw [← hr]; exact oL
  · rw [← hdm]
    obtain ⟨oL, oR, -, -⟩ := fac
    have hr := hi.cols
    cases up
    · simp only [colsOf, Bool.false_eq_true, if_false] at hr
      rw [← hr]
      simp only [leftOf, Bool.false_eq_true, if_false, transpose_transpose] at oL
      exact oL
    · simp only [colsOf, if_true] at hr
      rw [← hr]
      simp only [rightOf, if_true, transpose_transpose] at oR
      exact oR
  · -- the residual
    obtain ⟨-, -, dist, norm⟩ := fac
    have hdiag : biD d st.s.diag.get st.s.off.get = Matrix.diagonal (toVec d st.s.diag) := by
      ext r k
      simp only [biD, Matrix.of_apply, Matrix.diagonal_apply, toVec]
      by_cases h : r = k
      · rw [if_pos (congrArg Fin.val h), if_pos h]
      · rw [if_neg (fun h' => h (Fin.ext h')), if_neg h]
        split_ifs with h3
        · exact off0 r (by have := k.2; omega)
        · rfl
    rw [hdiag] at dist norm
    have hbud : budget d (2 * eps * frob (svdX0 p d up a)) st.s.off.get ≤
        (d - 1 : Nat) * (2 * eps * frob (svdX0 p d up a)) := by
      unfold budget
      refine mul_le_mul_of_nonneg_right ?_ (eta_nonneg heps)
      exact_mod_cast Nat.sub_le _ _
    have dist' := dist.trans hbud
    rw [← hdm]
    have hsc : Matrix.diagonal (toVec d (st.s.diag.map fun x => x * a.amax)) =
        a.amax • Matrix.diagonal (toVec d st.s.diag) := by
      ext r k
      simp only [Matrix.diagonal_apply, Matrix.smul_apply, toVec, Arr1.map, smul_eq_mul]
      split_ifs <;> ring
    rw [hsc, hamax, Matrix.mul_smul, Matrix.smul_mul, ← smul_sub, frob_smul, frob_smul, frob_smul,
      abs_of_nonneg hA]
    have hfr : frob (svdX0 p d up a) = frob (toMat a.nr a.nc (a.scaleDown a.amax)) ∧
        frob (toMat a.nr a.nc (a.scaleDown a.amax) - toMat a.nr d U1 *
          Matrix.diagonal (toVec d st.s.diag) * toMat d a.nc V1) =
        frob (svdX0 p d up a - leftOf p d up U1 V1 * Matrix.diagonal (toVec d st.s.diag) *
          (rightOf d up U1 V1)ᵀ) := by
      have hr := hi.rows
      have hc := hi.cols
      cases up
      · simp only [rowsOf, colsOf, Bool.false_eq_true, if_false] at hr hc
        rw [← hr, ← hc]
        simp only [svdX0, leftOf, rightOf, Bool.false_eq_true, if_false]
        rw [frob_transpose]
        refine ⟨rfl, ?_⟩
        rw [← frob_transpose]
        congr 1
        rw [transpose_sub, transpose_mul, transpose_mul, Matrix.diagonal_transpose, Matrix.mul_assoc]
      · simp only [rowsOf, colsOf, if_true] at hr hc
        rw [← hr, ← hc]
        simp only [svdX0, leftOf, rightOf, if_true, transpose_transpose]
        exact ⟨trivial, trivial⟩
    rw [hfr.2]
    rw [← hfr.1]
    refine ⟨?_, mul_le_mul_of_nonneg_left norm hA⟩
    calc a.amax * _ ≤ a.amax * ((d - 1 : Nat) * (2 * eps * frob (svdX0 p d up a))) :=
          mul_le_mul_of_nonneg_left dist' hA
      _ = _ := by ring

/-- `svd` over the reals. -/
theorem svdGo_real {m n : Nat} (fuel : Nat) (a : Arr2 ℝ) (eps : ℝ) (ha : HasShape a m n)
    (hm : m ≠ 0) (hn : n ≠ 0) (heps : 0 ≤ eps) :
    wp (svdGo fuel a true true eps) (SvdResult m n a eps) (fun f => f = .fuel) := by
  obtain ⟨p, d, up, hi⟩ := svdInit a eps heps (by rw [ha.1]; exact hm) (by rw [ha.2]; exact hn)
  exact svdGo_real_aux fuel a eps ha heps up hi

/-- The flags over the reals. -/
theorem svdGo_keep_real (a : Arr2 ℝ) (eps : ℝ) (heps : 0 ≤ eps) (cu cv : Bool) (fuel : Nat) :
    svdGo fuel a cu cv eps = (svdGo fuel a true true eps).map (keepRes cu cv) := by
  by_cases hz : a.nr = 0 ∨ a.nc = 0
  · unfold svdGo
    rw [if_pos hz, if_pos hz]
    rfl
  obtain ⟨p, d, up, hi⟩ := svdInit a eps heps (by omega) (by omega)
  have hd := hi.dpos
  refine svdGo_keep a (fun st => SvdSt (rowsOf p d up) (colsOf p d up) d true true st ∧
    SvdOk (svdX0 p d up a) up eps st.s ∧ SvdGood d st.s st.start st.end) ?_ ?_ ?_ ?_ fuel
  · intro b U Vt e1 e2 e3 hs
    obtain ⟨ok, nn⟩ := hi.ok b U Vt e1 e2 e3
    rw [← hi.hmin, ← hi.rows, ← hi.cols] at hs
    rw [hi.hup, ← hi.hmin]
    refine wp_conseq (wp_and (svdDelimit_real hs ok heps hi.x0 (by omega) nn
      (fun k h1 h2 => by omega)) (svdDelimit_shape (by omega) hs)) ?_
    rintro ⟨s1, start, e⟩ ⟨⟨-, ok, good, -⟩, sh, hlt, hle⟩
    exact ⟨⟨sh, hlt, by simp only at hle ⊢; omega⟩, ok, good⟩
  · rintro st ⟨h, -⟩
    rw [← hi.hmin, ← hi.rows, ← hi.cols]
    exact h.shape
  · rintro st ⟨h1, h2, h3⟩ hne
    rw [hi.hup]
    exact svdStep_real heps hi.x0 h1 h2 h3 hne
  · rintro st ⟨h1, h2, h3⟩ hse
    have := h1.ltd
    exact uptrig2x2Keeps_real (h3.pos _ le_rfl (by omega) (by omega)) (h3.offn _ le_rfl (by omega))
      (h3.pos _ (by omega) (by omega) (by omega)) _ _

/-- When the smaller dimension is at most two, one iteration is enough, in every arithmetic. -/
theorem svdGo_small {α : Type} [Zero α] [One α] [Add α] [Sub α] [Mul α] [Div α] [Neg α] [NdFloat α]
    (a : Arr2 α) (cu cv : Bool) (eps : α) (fuel : Nat) (h1 : a.nr ≠ 0) (h2 : a.nc ≠ 0)
    (hd : min a.nr a.nc ≤ 2) : ∃ r, svdGo (fuel + 1) a cu cv eps = .ok r := by
  obtain ⟨b, U, Vt, -, -, -, -, hs, he⟩ := svdGo_eq a h1 h2
  have : Succeeds (svdGo (fuel + 1) a cu cv eps) fun _ => True := by
    rw [he]
    unfold Succeeds
    rw [wp_bind]
    refine wp_conseq (svdDelimit_shape (by omega) (hs cu cv)) ?_
    rintro ⟨s, start, e⟩ ⟨hs1, hlt, hle⟩
    simp only at hs1 hlt hle ⊢
    rw [wp_bind]
    have hloop : wp (svdLoop (decide (a.nc ≤ a.nr)) cu cv eps (fuel + 1) ⟨s, start, e⟩)
        (SvdSt a.nr a.nc (min a.nr a.nc) cu cv) (fun _ => False) := by
      have hst : SvdSt a.nr a.nc (min a.nr a.nc) cu cv ⟨s, start, e⟩ :=
        ⟨hs1, hlt, by simp only; omega⟩
      unfold svdLoop
      split_ifs with h0
      · exact hst
      · simp only at h0
        rw [wp_bind]
        refine wp_conseq (wp_svdStep hst h0 (fun st => st.end = 0 ∧ st.start = 0) ?_ ?_) ?_
        · simp only; omega
        · intro hse
          simp only at hse ⊢
          refine wp_conseq (svd2x2_shape hs1 (by simp only; omega)) ?_
          rintro st1 ⟨sh1, -, e1⟩
          refine ⟨sh1, e1, ?_⟩
          refine wp_conseq (svdDelimit_shape (by omega) sh1) ?_
          rintro ⟨s2, st2, e2⟩ ⟨-, q1, q2⟩
          simp only at q1 q2 ⊢
          omega
        · rintro st ⟨hst2, z1, z2⟩
          cases fuel with
          | zero => unfold svdLoop; rw [if_pos (by omega)]; exact hst2
          | succ f => unfold svdLoop; rw [if_pos (by omega)]; exact hst2
    refine wp_conseq hloop ?_
    intro st hst
    rw [wp_bind]
    refine wp_conseq (fixSigns_shape _ _ (by exact hst.shape.dlen) hst.shape.u hst.shape.hu) ?_
    intro _ _
    trivial
  obtain ⟨r, e, -⟩ := succeeds_iff.1 this
  exact ⟨r, e⟩

end LinfaLinalg
