import Verif.Proofs.SvdFloat
import Verif.Spec.SvdRun
/-! # The blocks that `svd` decomposes on a `2 × 2` matrix -/

namespace LinfaLinalg

open Matrix

variable {R : StdModel}

/-- A `2 × 2` matrix has only one block to decompose: the loop ends after it. -/
theorem SvdVisits.two {a : Arr2 (Rnd R)} (ha : HasShape a 2 2) {cu cv : Bool} {eps : Rnd R} {st : SvdState (Rnd R)}
    (h : SvdVisits a cu cv eps st) : SvdStart a cu cv eps st ∨ st.end = st.start := by
  have key : ∀ st, SvdStart a cu cv eps st → SvdSt 2 2 2 cu cv st := by
    rintro ⟨s, x, e⟩ ⟨b, U, Vt, e1, e2, e3, hdel⟩
    obtain ⟨b', U', Vt', e1', e2', e3', -, hs, -⟩ := svdGo_eq a (by rw [ha.1]; omega) (by rw [ha.2]; omega)
    rw [e1, Except.ok.injEq] at e1'
    subst e1'
    rw [e2, Except.ok.injEq] at e2'
    subst e2'
    rw [e3, Except.ok.injEq] at e3'
    subst e3'
    have hs' := hs cu cv
    rw [ha.1, ha.2] at hs' hdel
    have := svdDelimit_shape (up := decide (2 ≤ 2)) (eps := eps) (e := 1) (by omega) hs'
    rw [show svdDelimit _ 1 eps _ = _ from hdel] at this
    exact ⟨this.1, this.2.1, Nat.lt_succ_of_le this.2.2⟩
  induction h with
  | start h => exact Or.inl h
  | @step st st' h hne hst ih =>
    rcases ih with ih | ih
    · right
      have hsh := key _ ih
      have hlt := hsh.lt
      have hd := hsh.ltd
      have hse : st.start = 0 ∧ st.end = 1 := by omega
      have := wp_svdStep (up := decide (a.nc ≤ a.nr)) (eps := eps) (E := fun _ => True) hsh hne
        (fun st' => st'.end = st'.start) (fun _ => by omega) (fun _ => by
          refine wp_mono (svd2x2_shape hsh.shape (by omega)) ?_ (fun _ _ => trivial)
          rintro st1 ⟨h1, -, h2⟩
          refine ⟨h1, h2, wp_mono (svdDelimit_shape (by omega) h1) ?_ (fun _ _ => trivial)⟩
          rintro ⟨s2, x, y⟩ ⟨-, h3, h4⟩
          simp only at h3 h4 ⊢
          omega)
      rw [hst] at this
      exact this.2
    · exact absurd ih hne

local notation "𝔻" => Rnd StdModel.double

local macro "exr" k:term:max e:term:max : term =>
  `(Rnd.ext (binRound_exact $k $e (by norm_num) (by norm_num) (by norm_num)))

/-- `[[3/4, 1], [0, 1/2]]`. -/
noncomputable def exSvdGood : Arr2 𝔻 :=
  ⟨2, 2, fun i j => ⟨(ofRows 2 2 [[3 / 4, 1], [0, 1 / 2]]).get i j⟩⟩

theorem exSvdGood_bidiag (g : Nat → Nat → 𝔻) (h00 : g 0 0 = ⟨3 / 4⟩) (h01 : g 0 1 = 1) (h10 : g 1 0 = 0)
    (h11 : g 1 1 = ⟨1 / 2⟩) :
    ∃ t, bidiagonal ⟨2, 2, g⟩ = .ok t ∧ t.upperDiag = true ∧ t.uv.nr = 2 ∧ t.uv.nc = 2 ∧ t.diagonal.len = 2 ∧
      t.offDiagonal.len = 1 ∧ t.diagonal.get 0 = -⟨3 / 4⟩ ∧ t.diagonal.get 1 = -(-⟨1 / 2⟩) ∧
      t.offDiagonal.get 0 = -1 := by
  refine bidiag2 dblDots g IsDbl (a := ⟨3 / 4⟩) (d := ⟨1 / 2⟩) (aa := ⟨9 / 16⟩) (a2 := ⟨3 / 2⟩) (a3 := ⟨9 / 8⟩)
    (a4 := ⟨9 / 4⟩) (t2 := ⟨2⟩) (t4 := ⟨4⟩) (dd := ⟨1 / 4⟩) (dd3 := ⟨1 / 2⟩) (dd4 := ⟨1⟩)
    (d2 := ⟨1⟩) (d2' := ⟨-1⟩) (tn := ⟨-2⟩) h00 h01 h10 h11
    (exr 0 0) (fun x h => Rnd.ext (by simpa [IsDbl] using h)) (fun x h => Rnd.ext (by simpa [IsDbl] using h))
    (fun x h => Rnd.ext (by simpa [IsDbl] using h)) (fun x => Rnd.ext (by simp [dbl_zero]))
    (fun x h => Rnd.ext (by simpa [IsDbl] using h)) (fun x => Rnd.ext (by simp [dbl_zero]))
    (fun x h => Rnd.ext (by simpa [IsDbl] using h)) (fun x => Rnd.ext (by simp [dbl_zero]))
    (isDbl 1 0 (by norm_num) (by norm_num)) (isDbl 3 (-2) (by norm_num) (by norm_num))
    (isDbl 1 (-1) (by norm_num) (by norm_num)) (isDbl (-1) (-1) (by norm_num) (by norm_num))
    (isDbl 9 (-4) (by norm_num) (by norm_num)) (isDbl 1 (-2) (by norm_num) (by norm_num))
    (isDbl (-2) 0 (by norm_num) (by norm_num)) (isDbl 1 0 (by norm_num) (by norm_num))
    (exr 9 (-4)) (exSqrt 3 (-2) (by norm_num) (by norm_num) (by norm_num) (by norm_num))
    (Rnd.ext (by rw [Rnd.signum_v, if_neg (by norm_num), Rnd.one_v]))
    (Rnd.ext (by
      rw [Rnd.mul_v, Rnd.abs_v, abs_of_pos (by norm_num)]
      exact binRound_exact 9 (-4) (by norm_num) (by norm_num) (by norm_num)))
    (exr 9 (-3)) (by rw [two_dbl]; exact exr 9 (-2)) (by norm_num)
    (exSqrt 3 (-1) (by norm_num) (by norm_num) (by norm_num) (by norm_num)) (exr 3 (-1)) (exr 1 0)
    (Rnd.ext (by rw [Rnd.signum_v, if_pos (by norm_num), Rnd.neg_v, Rnd.one_v])) neg_two_dbl (exr (-1) 0) (exr 1 0)
    (exSqrt 1 0 (by norm_num) (by norm_num) (by norm_num) (by norm_num))
    (Rnd.ext (by rw [Rnd.signum_v, if_neg (by norm_num), Rnd.one_v])) (exr 2 0)
    (Rnd.ext (by simp)) (by rw [two_dbl]; exact exr 4 0) (by norm_num)
    (exSqrt 2 0 (by norm_num) (by norm_num) (by norm_num) (by norm_num)) (exr 1 0)
    (Rnd.ext (by rw [Rnd.signum_v, if_pos (by norm_num), Rnd.neg_v, Rnd.one_v]))
    (exr (-1) (-1)) (exr 1 0) (exr 1 (-1)) (exr 1 (-2))
    (exSqrt 1 (-1) (by norm_num) (by norm_num) (by norm_num) (by norm_num))
    (Rnd.ext (by rw [Rnd.signum_v, if_pos (by norm_num), Rnd.neg_v, Rnd.one_v]))
    (exr (-1) (-1)) (exr (-1) 0)
    (Rnd.ext (by
      rw [Rnd.mul_v, Rnd.abs_v, Rnd.neg_v, abs_neg, abs_of_pos (by norm_num)]
      exact binRound_exact 1 (-2) (by norm_num) (by norm_num) (by norm_num)))
    (exr 1 (-1)) (by rw [two_dbl]; exact exr 1 0) (by norm_num)

/-- Every `2 × 2` block that `svd` decomposes on `exSvdGood` is `UptrigGood 5`. -/
theorem exSvdGood_good (cu cv : Bool) (st : SvdState 𝔻)
    (h : SvdVisits exSvdGood cu cv (NdFloat.epsilon * NdFloat.ofRat 5) st) : SvdBlockGood 5 st := by
  intro hst
  have hmax : exSvdGood.amax = 1 := by
    apply Rnd.ext
    simp only [Arr2.amax, Arr2.toList, exSvdGood, ofRows, List.range_succ, List.range_zero]
    simp
    have h : (NdFloat.negInf : 𝔻).v = -1 := rfl
    rw [h]
    rw [abs_of_pos (by norm_num : (0 : ℝ) < 3 / 4)]
    norm_num
  have hsd : exSvdGood.scaleDown exSvdGood.amax = ⟨2, 2, fun i j => exSvdGood.get i j / 1⟩ := by
    rw [hmax]
    unfold Arr2.scaleDown
    rw [if_neg (by simp)]
    rfl
  obtain ⟨t, ht, t1, t2, t3, t4, t5, t6, t7, t8⟩ := exSvdGood_bidiag (fun i j => exSvdGood.get i j / 1)
    (Rnd.ext (binRound_exact 3 (-2) (by norm_num) (by norm_num [exSvdGood, ofRows]) (by norm_num [exSvdGood, ofRows])))
    (Rnd.ext (binRound_exact 1 0 (by norm_num) (by norm_num [exSvdGood, ofRows]) (by norm_num [exSvdGood, ofRows])))
    (Rnd.ext (binRound_exact 0 0 (by norm_num) (by norm_num [exSvdGood, ofRows]) (by norm_num [exSvdGood, ofRows])))
    (Rnd.ext (binRound_exact 1 (-1) (by norm_num) (by norm_num [exSvdGood, ofRows]) (by norm_num [exSvdGood, ofRows])))
  rcases SvdVisits.two (a := exSvdGood) ⟨rfl, rfl⟩ h with ⟨b, U, Vt, hb, -, -, hdel⟩ | h
  · rw [hsd, ht] at hb
    obtain rfl : t = b := Except.ok.inj hb
    have heps : (NdFloat.epsilon * NdFloat.ofRat 5 : 𝔻) = ⟨5 / 2 ^ 52⟩ := by
      have : (NdFloat.ofRat 5 : 𝔻) = ⟨5⟩ := exr 5 0
      rw [this]
      apply Rnd.ext
      show binRound 53 ((2 : ℝ)⁻¹ ^ 52 * 5) = _
      exact binRound_exact 5 (-52) (by norm_num) (by norm_num) (by norm_num)
    have g0 : t.intoDiagonals.1.get 0 = ⟨3 / 4⟩ := by
      simp only [BidiagonalDecomp.intoDiagonals, Arr1.map, t6]
      exact Rnd.ext (by rw [Rnd.abs_v, Rnd.neg_v, abs_neg, abs_of_pos (by norm_num)])
    have g1 : t.intoDiagonals.1.get 1 = ⟨1 / 2⟩ := by
      simp only [BidiagonalDecomp.intoDiagonals, Arr1.map, t7]
      exact Rnd.ext (by rw [Rnd.abs_v, Rnd.neg_v, Rnd.neg_v, neg_neg, abs_of_pos (by norm_num)])
    have g2 : t.intoDiagonals.2.get 0 = 1 := by
      simp only [BidiagonalDecomp.intoDiagonals, Arr1.map, t8]
      exact Rnd.ext (by simp)
    have hd := svdDelimit2 t.intoDiagonals.1 t.intoDiagonals.2 (if cu then some U else none) (if cv then some Vt else none)
      (⟨5 / 2 ^ 52⟩ : 𝔻) t4 t5 g0 g1 g2 (by simp)
      (by
        rw [Rnd.le_v, decide_eq_false_iff_not, Rnd.mul_v, Rnd.add_v, Rnd.abs_v, Rnd.abs_v, Rnd.abs_v, Rnd.one_v, not_le]
        have h1 := dbl_pos (z := |(1 / 2 : ℝ)| + |(3 / 4 : ℝ)|) (a := 0) (b := 2) (by norm_num)
          (by positivity) (by rw [abs_of_pos (by norm_num), abs_of_pos (by norm_num)]; norm_num)
        have h2 := dbl_pos (z := (5 / 2 ^ 52 : ℝ) * StdModel.double.rnd (|(1 / 2 : ℝ)| + |(3 / 4 : ℝ)|)) (a := 0)
          (b := 1 / 2) le_rfl (mul_nonneg (by norm_num) (by norm_num at h1 ⊢; linarith))
          (by norm_num at h1 ⊢; linarith)
        refine lt_of_le_of_lt h2.2 ?_
        norm_num)
      (by
        rw [Rnd.le_v, decide_eq_false_iff_not, Rnd.abs_v, abs_of_pos (by norm_num)]
        norm_num)
      (by
        rw [Rnd.le_v, decide_eq_false_iff_not, Rnd.abs_v, abs_of_pos (by norm_num)]
        norm_num)
    have hle : decide (exSvdGood.nc ≤ exSvdGood.nr) = true := by simp [exSvdGood]
    rw [hle, heps, show min exSvdGood.nr exSvdGood.nc - 1 = 1 from rfl, hd, Except.ok.injEq, Prod.mk.injEq,
      Prod.mk.injEq] at hdel
    obtain ⟨h1, h2, -⟩ := hdel
    rw [← h1, ← h2]
    simp only
    rw [g0, zero_add, g1, g2, Rnd.one_v]
    norm_num [UptrigGood]
  · omega

end LinfaLinalg
