import Verif.Proofs.FormatClosed
import Verif.Proofs.Basic
import Verif.Model.Lobpcg

/-! # LOBPCG on floats: the operator zero on vectors of length one -/

set_option linter.unusedSectionVars false
set_option linter.unusedSimpArgs false
namespace LinfaLinalg
open Flt
section
variable {α : Type} [Zero α] [One α] [Add α] [Sub α] [Mul α] [Div α] [Neg α] [NdFloat α]

theorem eighInto_single (fuel : Nat) (g : Nat → Nat → α) :
    ∃ v : Arr2 α, eighInto fuel (⟨1, 1, g⟩ : Arr2 α) =
      .ok (⟨1, fun i => ((⟨1, 1, g⟩ : Arr2 α).scaleDown (⟨1, 1, g⟩ : Arr2 α).amax).get i i * (⟨1, 1, g⟩ : Arr2 α).amax⟩, v) ∧
      v.nr = 1 ∧ v.nc = 1 ∧ v.get 0 0 = 1 := by
  generalize hA : (⟨1, 1, g⟩ : Arr2 α).amax = m
  have hs : ((⟨1, 1, g⟩ : Arr2 α).scaleDown m).nr = 1 ∧ ((⟨1, 1, g⟩ : Arr2 α).scaleDown m).nc = 1 := by
    unfold Arr2.scaleDown; split_ifs <;> exact ⟨rfl, rfl⟩
  generalize hB : (⟨1, 1, g⟩ : Arr2 α).scaleDown m = b at *
  obtain ⟨bn, bc, bg⟩ := b
  obtain ⟨h1, h2⟩ := hs
  simp only at h1 h2
  subst h1 h2
  unfold eighInto symmetricEig
  rw [hA]
  dsimp only
  rw [hB]
  exact ⟨_, rfl, rfl, rfl, rfl⟩

/-- `orthonormalize` of a number. -/
theorem orthonormalize_single {g : Nat → Nat → α} (h : NdFloat.le (dotTo 1 (fun k => g k 0) (fun k => g k 0) - 0 : α) 0 = false) :
    ∃ q f : Arr2 α, orthonormalize (⟨1, 1, g⟩ : Arr2 α) = .ok (q, f) ∧ q.nr = 1 ∧ q.nc = 1 ∧
      q.get 0 0 = g 0 0 / NdFloat.sqrt (dotTo 1 (fun k => g k 0) (fun k => g k 0) - 0) := by
  have hc : ∃ c : Arr2 α, cholesky (⟨1, 1, fun i j => dotTo 1 (fun k => g k i) (fun k => g k j)⟩ : Arr2 α) = .ok c ∧ c.nr = 1 ∧ c.nc = 1 ∧
      c.get 0 0 = NdFloat.sqrt (dotTo 1 (fun k => g k 0) (fun k => g k 0) - 0) := by
    have hl : cholLoop (List.range 1) (⟨1, 1, fun i j => dotTo 1 (fun k => g k i) (fun k => g k j)⟩ : Arr2 α) = .ok (⟨1, 1,
        fun i j => if i = 0 ∧ j = 0 then NdFloat.sqrt (dotTo 1 (fun k => g k 0) (fun k => g k 0) - 0) else dotTo 1 (fun k => g k i) (fun k => g k j)⟩, none) := by
      show (if NdFloat.le (dotTo 1 (fun k => g k 0) (fun k => g k 0) - 0 : α) 0 then _ else _) = _
      rw [h]
      rfl
    unfold cholesky choleskyInplace choleskyInplaceDirty
    rw [show checkSquare (⟨1, 1, fun i j => dotTo 1 (fun k => g k i) (fun k => g k j)⟩ : Arr2 α) = .ok 1 from rfl]
    simp only [hl]
    exact ⟨_, rfl, rfl, rfl, rfl⟩
  obtain ⟨c, hc, c1, c2, c3⟩ := hc
  unfold orthonormalize
  rw [show (⟨1, 1, g⟩ : Arr2 α).t.dot ⟨1, 1, g⟩ = .ok ⟨1, 1, fun i j => dotTo 1 (fun k => g k i) (fun k => g k j)⟩ from rfl, ok_bind, hc, ok_bind]
  obtain ⟨cn, cc, cg⟩ := c
  simp only at c1 c2 c3
  subst c1 c2
  refine ⟨_, _, rfl, rfl, rfl, ?_⟩
  show g 0 0 / cg 0 0 = _
  rw [c3]
end


section
variable {F : Format}
local notation "𝔽" => Flt (Rounding.ieee F)

theorem f_mul_one_one : (1 : 𝔽) * 1 = 1 := by
  show Flt.mul _ _ = _
  simp only [Flt.one_def, Flt.mul, Flt.round, mul_one]
  rw [show (Rounding.ieee F).rnd 1 = some 1 from isMag_one.round]
  rfl
theorem f_mul_zero (s : Bool) (x : ℝ) : (fin s x : 𝔽) * 0 = fin s 0 := by
  show Flt.mul _ _ = _
  simp only [Flt.zero_def, Flt.mul, Flt.round, mul_zero]
  rw [show (Rounding.ieee F).rnd 0 = some 0 from isMag_zero.round]
  cases s <;> rfl
theorem f_zero_mul (x : ℝ) : (0 : 𝔽) * fin false x = 0 := by
  show Flt.mul _ _ = _
  simp only [Flt.zero_def, Flt.mul, Flt.round, zero_mul]
  rw [show (Rounding.ieee F).rnd 0 = some 0 from isMag_zero.round]
  rfl
theorem f_zero_add_one : (0 : 𝔽) + 1 = 1 := by
  show Flt.add _ _ = _
  simp only [Flt.zero_def, Flt.one_def, Flt.add, Flt.val, Flt.sgn, Flt.ofReal]
  simp [Flt.round, show (Rounding.ieee F).rnd 1 = some 1 from isMag_one.round]
theorem f_zero_add_zero : (0 : 𝔽) + 0 = 0 := by
  show Flt.add _ _ = _
  simp [Flt.zero_def, Flt.add, Flt.val, Flt.sgn, Flt.ofReal]
theorem f_zero_sub_zero : (0 : 𝔽) - 0 = 0 := by
  show Flt.sub _ _ = _
  simp [Flt.zero_def, Flt.sub, Flt.neg, Flt.add, Flt.val, Flt.sgn, Flt.ofReal]
theorem f_one_sub_zero : (1 : 𝔽) - 0 = 1 := by
  show Flt.sub _ _ = _
  simp only [Flt.zero_def, Flt.one_def, Flt.sub, Flt.neg, Flt.add, Flt.val, Flt.sgn, Flt.ofReal]
  simp [Flt.round, show (Rounding.ieee F).rnd 1 = some 1 from isMag_one.round]
theorem f_sqrt_one : NdFloat.sqrt (1 : 𝔽) = 1 := by
  show Flt.sqrt _ = _
  simp [Flt.one_def, Flt.sqrt, Flt.round, show (Rounding.ieee F).rnd 1 = some 1 from isMag_one.round]
theorem f_sqrt_zero : NdFloat.sqrt (0 : 𝔽) = 0 := by
  show Flt.sqrt _ = _
  simp [Flt.zero_def, Flt.sqrt]
theorem f_one_div_one : (1 : 𝔽) / 1 = 1 := by
  show Flt.div _ _ = _
  simp [Flt.one_def, Flt.div, Flt.round, show (Rounding.ieee F).rnd 1 = some 1 from isMag_one.round]
theorem f_zero_div_zero : (0 : 𝔽) / 0 = .nan := by
  show Flt.div _ _ = _
  simp [Flt.zero_def, Flt.div]
theorem f_dot (f g : Nat → 𝔽) : dotTo 1 f g = 0 + f 0 * g 0 := by
  have p1 : DotPlans.unrolled.plan 1 = .add (.fold8 0) (.prod 0) := rfl
  have h0 : (Flt.fin false 0 : 𝔽).add (.fin false 0) = .fin false 0 := by
    simp [Flt.add, Flt.val, Flt.ofReal]
  show (DotPlans.unrolled.plan 1).eval (Flt.fin false 0 : 𝔽) Flt.add Flt.mul Flt.fma [(f 0, g 0)] = _
  rw [p1]
  simp [DotPlan.fold8, DotPlan.acc, DotPlan.seq, DotPlan.eval, h0]
  rfl

theorem f_eigh (fuel : Nat) (g : Nat → Nat → 𝔽) (h : g 0 0 = 0) : ∃ l : Arr1 𝔽, ∃ v : Arr2 𝔽,
    eighInto fuel ⟨1, 1, g⟩ = .ok (l, v) ∧ l.len = 1 ∧ l.get 0 = 0 ∧ v.nr = 1 ∧ v.nc = 1 ∧ v.get 0 0 = 1 := by
  obtain ⟨v, h1, h2, h3, h4⟩ := eighInto_single fuel g
  refine ⟨_, v, h1, rfl, ?_, h2, h3, h4⟩
  have hm : (⟨1, 1, g⟩ : Arr2 𝔽).amax = 0 := by
    show NdFloat.max NdFloat.negInf (NdFloat.abs (g 0 0)) = _
    rw [h]
    show Flt.max (.inf true) (.fin false 0) = _
    simp [Flt.max, Flt.lt]
    rfl
  show ((⟨1, 1, g⟩ : Arr2 𝔽).scaleDown (⟨1, 1, g⟩ : Arr2 𝔽).amax).get 0 0 * (⟨1, 1, g⟩ : Arr2 𝔽).amax = 0
  rw [hm]
  unfold Arr2.scaleDown
  rw [if_pos (show NdFloat.isZero (0 : 𝔽) = true by show Flt.isZero _ = _; simp [Flt.isZero, Flt.zero_def])]
  show g 0 0 * 0 = 0
  rw [h]
  exact f_mul_zero false 0

/-- `sorted_eig` of the number zero. -/
theorem f_sortedEig (fuel : Nat) (order : Order) (g : Nat → Nat → 𝔽) (h : g 0 0 = 0) : ∃ l : Arr1 𝔽, ∃ v : Arr2 𝔽,
    sortedEig (eighInto fuel) ⟨1, 1, g⟩ none 1 order = .ok (l, v) ∧ l.len = 1 ∧ l.get 0 = 0 ∧ v.nr = 1 ∧ v.nc = 1 ∧
      v.get 0 0 = 1 := by
  obtain ⟨⟨ln, lg⟩, ⟨vn, vc, vg⟩, h1, h2, h3, h4, h5, h6⟩ := f_eigh fuel g h
  simp only at h2 h3 h4 h5 h6
  subst h2 h4 h5
  unfold sortedEig
  simp only
  rw [h1, ok_bind]
  simp only
  cases order <;> refine ⟨_, _, rfl, rfl, h3, rfl, rfl, ?_⟩
  all_goals
    show vg 0 0 * NdFloat.signum (vg 0 0) = 1
    rw [h6]
    exact f_mul_one_one

theorem f_mul_one_zero : (1 : 𝔽) * 0 = 0 := f_mul_zero false 1
theorem f_zero_mul_one : (0 : 𝔽) * 1 = 0 := f_zero_mul 1
theorem f_zero_mul_zero : (0 : 𝔽) * 0 = 0 := f_zero_mul 0

theorem f_sq_not_neg (x : 𝔽) : NdFloat.lt (x * x) 0 = false := by
  show Flt.lt (Flt.mul x x) (.fin false 0) = false
  cases x with
  | nan => rfl
  | inf s => simp [Flt.mul, Flt.lt]
  | fin s m =>
    simp only [Flt.mul, bne_self_eq_false, Flt.round]
    cases h : (Rounding.ieee F).rnd (m * m) with
    | none => simp [Flt.lt]
    | some y =>
      have := (Rounding.ieee F).rnd_nonneg _ _ h
      simpa [Flt.lt, Flt.val, Flt.sgn] using this

/-- The loop ends in its first pass. -/
theorem f_loop (eig : EigSolver 𝔽) (P : LobParams 𝔽) (cholYY : Option (Arr2 𝔽)) (n : Nat) (htol : NdFloat.lt P.tol 0 = false)
    (st : LobState 𝔽) (lg : Nat → 𝔽) (xg ag : Nat → Nat → 𝔽) (h1 : st.lambda = ⟨1, lg⟩) (h2 : st.x = ⟨1, 1, xg⟩)
    (h3 : st.ax = ⟨1, 1, ag⟩) (h4 : lg 0 = 0) (h5 : xg 0 0 = 1) (h6 : ag 0 0 = 0) (h7 : st.mask = [true])
    (h8 : st.best = none) : ∃ st', lobLoop eig P cholYY n st = .ok (st', none) ∧
      st'.best = some ⟨st.lambda, st.x, [0]⟩ := by
  have hr : ∃ r, lobResidual st = .ok (r, [0]) := by
    unfold lobResidual
    rw [h1, h2, h3]
    rw [show (⟨1, 1, xg⟩ : Arr2 𝔽).dot (Arr2.fromDiag ⟨1, lg⟩) = .ok ⟨1, 1, fun i j =>
      dotTo 1 (fun k => xg i k) (fun k => (Arr2.fromDiag ⟨1, lg⟩).get k j)⟩ from rfl, ok_bind]
    refine ⟨⟨1, 1, fun i j => ag i j - dotTo 1 (fun k => xg i k) (fun k => (Arr2.fromDiag ⟨1, lg⟩).get k j)⟩, ?_⟩
    · unfold Arr2.sub
      rw [if_pos ⟨rfl, rfl⟩, ok_bind]
      have e : ag 0 0 - dotTo 1 (fun k => xg 0 k) (fun k => (Arr2.fromDiag ⟨1, lg⟩).get k 0) = (0 : 𝔽) := by
        rw [f_dot, h5, h6, show (Arr2.fromDiag ⟨1, lg⟩ : Arr2 𝔽).get 0 0 = lg 0 from rfl, h4, f_mul_one_zero, f_zero_add_zero,
          f_zero_sub_zero]
      have e2 : (normL2 [ag 0 0 - dotTo 1 (fun k => xg 0 k) (fun k => (Arr2.fromDiag ⟨1, lg⟩).get k 0)] : 𝔽) = 0 := by
        rw [e]
        show NdFloat.sqrt (0 + 0 * 0 : 𝔽) = 0
        rw [f_zero_mul_zero, f_zero_add_zero, f_sqrt_zero]
      show Except.ok (_, [normL2 [ag 0 0 - dotTo 1 (fun k => xg 0 k) (fun k => (Arr2.fromDiag ⟨1, lg⟩).get k 0)]]) = _
      rw [e2]
  obtain ⟨r, hr⟩ := hr
  have hm : updateMask P.tol [0] st.mask = [false] := by
    rw [h7]
    show [NdFloat.lt P.tol 0 && true] = _
    rw [htol]
    rfl
  cases n <;>
  · unfold lobLoop lobHead
    simp only [hr, ok_bind, hm]
    refine ⟨_, if_pos (Or.inl rfl), ?_⟩
    simp only [h8, updateBest]

/-- LOBPCG with the operator zero on vectors of length one. -/
theorem f_run (fuel maxiter : Nat) (P : LobParams 𝔽) (hy : P.y = none) (hA : ∀ c g, g 0 0 = (1 : 𝔽) → ∃ z : Arr2 𝔽, P.a c ⟨1, 1, g⟩ = .ok z ∧
      z.nr = 1 ∧ z.nc = 1 ∧ z.get 0 0 = 0) (htol : NdFloat.lt P.tol 0 = false) (g : Nat → Nat → 𝔽) (hg : g 0 0 = 1) :
    ∃ b hist, lobpcgRun (eighInto fuel) P ⟨1, 1, g⟩ maxiter = .ok (.ok b, hist) ∧ b.eigvals.len = 1 ∧ b.eigvals.get 0 = 0 ∧
      b.eigvecs.nr = 1 ∧ b.eigvecs.nc = 1 ∧ b.eigvecs.get 0 0 = 1 := by
  have hd : dotTo 1 (fun k => g k 0) (fun k => g k 0) - 0 = (1 : 𝔽) := by
    rw [f_dot, hg, f_mul_one_one, f_zero_add_one, f_one_sub_zero]
  obtain ⟨⟨qn, qc, qg⟩, f, ho, q1, q2, q3⟩ := orthonormalize_single (g := g) (by
    rw [hd]; show Flt.le _ _ = _; simp [Flt.le, Flt.one_def, Flt.zero_def, Flt.val, Flt.sgn])
  simp only at q1 q2 q3
  subst q1 q2
  rw [hd, f_sqrt_one, hg, f_one_div_one] at q3
  obtain ⟨⟨zn, zc, zg⟩, hz, z1, z2, z3⟩ := hA 0 qg q3
  simp only at z1 z2 z3
  subst z1 z2
  obtain ⟨⟨ln, lg⟩, ⟨vn, vc, vg⟩, hs, s1, s2, s3, s4, s5⟩ := f_sortedEig fuel P.order
    (fun i j => dotTo 1 (fun k => qg k i) (fun k => zg k j)) (by
      rw [f_dot, q3, z3, f_mul_one_zero, f_zero_add_zero])
  simp only at s1 s2 s3 s4 s5
  subst s1 s3 s4
  unfold lobpcgRun
  simp only [hy, show ¬ (1 > 1) by omega, if_false, ok_bind, LobParams.constrain, ho, catchM, LobParams.apply, hz, unwrapM]
  rw [show (⟨1, 1, qg⟩ : Arr2 𝔽).t.dot ⟨1, 1, zg⟩ = .ok ⟨1, 1, fun i j => dotTo 1 (fun k => qg k i) (fun k => zg k j)⟩ from rfl]
  simp only [ok_bind, hs]
  rw [show (⟨1, 1, qg⟩ : Arr2 𝔽).dot ⟨1, 1, vg⟩ = .ok ⟨1, 1, fun i j => dotTo 1 (fun k => qg i k) (fun k => vg k j)⟩ from rfl,
    show (⟨1, 1, zg⟩ : Arr2 𝔽).dot ⟨1, 1, vg⟩ = .ok ⟨1, 1, fun i j => dotTo 1 (fun k => zg i k) (fun k => vg k j)⟩ from rfl]
  simp only [ok_bind]
  have hx : dotTo 1 (fun k => qg 0 k) (fun k => vg k 0) = (1 : 𝔽) := by
    rw [f_dot, q3, s5, f_mul_one_one, f_zero_add_one]
  have hax : dotTo 1 (fun k => zg 0 k) (fun k => vg k 0) = (0 : 𝔽) := by
    rw [f_dot, z3, s5, f_zero_mul_one, f_zero_add_zero]
  obtain ⟨st', hl, hb⟩ := f_loop (eighInto fuel) P none (min (1 * 10) maxiter) htol ⟨⟨1, lg⟩,
    ⟨1, 1, fun i j => dotTo 1 (fun k => qg i k) (fun k => vg k j)⟩,
    ⟨1, 1, fun i j => dotTo 1 (fun k => zg i k) (fun k => vg k j)⟩, List.replicate 1 true, none, 1, Arr2.eye 1 1, none, true,
    min (1 * 10) maxiter, 1, none, []⟩ lg _ _ rfl rfl rfl s2 hx hax rfl rfl
  rw [hl]
  simp only [ok_bind, hb]
  exact ⟨_, _, rfl, rfl, s2, rfl, rfl, hx⟩
end

end LinfaLinalg
