import Verif.Model.Precision
import Verif.Props.LobpcgSettings
import Verif.Props.LobpcgScale
import Verif.Proofs.GivensFloat

/-! # The precision of the truncated solvers in single precision -/

set_option linter.unusedSectionVars false

namespace LinfaLinalg

open Flt

variable {F : Format} {ρ : Type}

/-- The format has all numbers of `f32`. -/
structure Format.Wide (F : Format) : Prop where
  mant : 23 ≤ F.mant
  emin : F.emin ≤ -149
  emax : 105 ≤ F.emax - F.mant

theorem Format.single_wide : Format.single.Wide := ⟨by norm_num [Format.single], by norm_num [Format.single], by norm_num [Format.single]⟩
theorem Format.double_wide : Format.double.Wide := ⟨by norm_num [Format.double], by norm_num [Format.double], by norm_num [Format.double]⟩

theorem IsMag.widen (hF : F.Wide) {m : ℝ} (h : IsMag .single m) : IsMag F m := by
  obtain ⟨k, e, h1, h2, h3, rfl⟩ := h
  obtain ⟨w1, w2, w3⟩ := hF
  refine ⟨k, e, h1.trans_le (Nat.pow_le_pow_right (by norm_num) ?_), ?_, ?_, rfl⟩
  · show 23 + 1 ≤ _; omega
  · have : (-149 : ℤ) ≤ e := h2; omega
  · have : e ≤ 128 - 23 - 1 := h3; omega

/-- From `2 ^ emax` on every number overflows. -/
theorem Format.round_huge {x : ℝ} (h : (2 : ℝ) ^ F.emax ≤ x) : F.round x = none := by
  have hx : 0 < x := lt_of_lt_of_le (by positivity) h
  have hlog : F.emax ≤ Int.log 2 x := by
    rw [← Int.zpow_le_iff_le_log (by norm_num) hx]
    exact_mod_cast h
  have hE : F.exp x = Int.log 2 x - F.mant := max_eq_left (by have := F.half; have := F.one; omega)
  have hp := two_zpow_pos (F.exp x)
  have hlog' : (2 : ℝ) ^ (Int.log 2 x) ≤ x := by
    have := Int.zpow_log_le_self (b := 2) (by norm_num) hx
    exact_mod_cast this
  have hpow : ((2 ^ F.mant : ℤ) : ℝ) * 2 ^ F.exp x = (2 : ℝ) ^ (Int.log 2 x) := by
    rw [hE, zpow_sub₀ (by norm_num), zpow_natCast]
    push_cast
    field_simp
  have hr := roundEven_ge_nat (x := x / 2 ^ F.exp x) (k := 2 ^ F.mant) (by rw [le_div_iff₀ hp, hpow]; exact hlog')
  have : (2 : ℝ) ^ F.emax ≤ (roundEven (x / 2 ^ F.exp x) : ℝ) * 2 ^ F.exp x :=
    calc (2 : ℝ) ^ F.emax ≤ 2 ^ (Int.log 2 x) := zpow_le_zpow_right₀ (by norm_num) hlog
      _ = ((2 ^ F.mant : ℤ) : ℝ) * 2 ^ F.exp x := hpow.symm
      _ ≤ _ := mul_le_mul_of_nonneg_right (by exact_mod_cast hr) hp.le
  unfold Format.round
  dsimp only
  rw [if_neg (not_lt.2 (this.trans (le_abs_self _)))]

theorem sq_single {s : Bool} {m : ℝ} : (fin s m : Flt Rounding.binary32) * fin s m = Flt.round false (m * m) := by
  show Flt.mul _ _ = _
  unfold Flt.mul
  simp

/-- The square in single precision. -/
theorem svdTolerance_fin {s : Bool} {m y : ℝ} (hF : F.Wide) (hy : Format.single.round (m * m) = some y) :
    (svdTolerance (fin s m) : Flt (Rounding.ieee F)) = fin false y := by
  have h1 : IsMag F y := (Format.round_isMag (mul_self_nonneg m) hy).widen hF
  unfold svdTolerance
  rw [sq_single]
  have h2 : (Flt.round false (m * m) : Flt Rounding.binary32) = fin false y := by
    unfold Flt.round
    rw [show Rounding.binary32.rnd (m * m) = some y from hy]
  rw [h2]
  show (Flt.round false y : Flt (Rounding.ieee F)) = _
  unfold Flt.round
  rw [show (Rounding.ieee F).rnd y = some y from h1.round]

/-- **C127**: `TruncatedEig` in single or double precision (or any format that contains `f32`) uses the precision it is
given, unchanged; so the model with the precision in the type of the matrix is right. -/
theorem C127_eig (hF : F.Wide) {p : Flt Rounding.binary32} (hp : IsFloat .single p) :
    (eigTolerance p : Flt (Rounding.ieee F)) = (match p with
      | .nan => .nan
      | .inf s => .inf s
      | .fin s m => .fin s m) ∧
    ∀ (eig : EigSolver (Flt (Rounding.ieee F))) (S : RandomSource (Flt (Rounding.ieee F)) ρ)
      (t : TruncatedEig (Flt (Rounding.ieee F)) ρ) (num : Nat), t.precision = eigTolerance p →
      t.decompose32 eig S p num = t.decompose eig S num := by
  constructor
  · cases p with
    | nan => rfl
    | inf s => rfl
    | fin s m =>
      show (Flt.round s m : Flt (Rounding.ieee F)) = _
      unfold Flt.round
      rw [show (Rounding.ieee F).rnd m = some m from (IsMag.widen hF hp).round]
  · intro eig S t num ht
    unfold TruncatedEig.decompose32 TruncatedEig.decompose
    rw [← ht]
    rfl

/-- **C127**: for `TruncatedSvd` in single precision the model with the precision in the type of the matrix is right. -/
theorem C127_svd_single (p : Flt Rounding.binary32) :
    (svdTolerance p : Flt Rounding.binary32) = p * p ∧
    ∀ (eig : EigSolver (Flt Rounding.binary32)) (S : RandomSource (Flt Rounding.binary32) ρ)
      (t : TruncatedSvd (Flt Rounding.binary32) ρ) (num : Nat), t.precision = p →
      t.decompose32 eig S p num = t.decompose eig S num := by
  have h : (svdTolerance p : Flt Rounding.binary32) = p * p := by
    cases p with
    | nan => rfl
    | inf s => rfl
    | fin s m =>
      cases hy : Format.single.round (m * m) with
      | none =>
        have h2 : (Flt.round false (m * m) : Flt Rounding.binary32) = inf false := by
          unfold Flt.round
          rw [show Rounding.binary32.rnd (m * m) = none from hy]
        unfold svdTolerance
        rw [sq_single, h2]
        rfl
      | some y =>
        rw [svdTolerance_fin Format.single_wide hy, sq_single]
        unfold Flt.round
        rw [show Rounding.binary32.rnd (m * m) = some y from hy]
  refine ⟨h, fun eig S t num ht => ?_⟩
  have hpar : ({ t.params with tol := svdTolerance p } : LobParams (Flt Rounding.binary32)) = t.params := by
    rw [h, ← ht]
    rfl
  unfold TruncatedSvd.decompose32 TruncatedSvd.decompose
  rw [hpar]
  dsimp only
  split_ifs
  · rfl
  · rcases lobpcgRun eig t.params (S.random (min t.problem.nr t.problem.nc) num t.rng).1 t.maxiter with
      e | ⟨(⟨e, _ | l⟩ | l), hist⟩ <;> rfl

/-- **C127**: in double precision the tolerance of `TruncatedSvd` is the square of the precision up to a relative error of
`2⁻²³`, as long as the square is a normal number of `f32`. -/
theorem C127_svd_normal (hF : F.Wide) (s : Bool) {m : ℝ} (h1 : (2 : ℝ) ^ (-126 : ℤ) ≤ m ^ 2) (h2 : m ^ 2 ≤ 2 ^ (127 : ℤ)) :
    ∃ y, (svdTolerance (fin s m) : Flt (Rounding.ieee F)) = fin false y ∧ |y - m ^ 2| ≤ (2 : ℝ) ^ (-23 : ℤ) * m ^ 2 := by
  rw [sq] at h1 h2 ⊢
  have hm : IsMag .single ((2 : ℝ) ^ (127 : ℤ)) :=
    ⟨2 ^ 23, 104, by norm_num [Format.single], by norm_num [Format.single], by norm_num [Format.single], by norm_num⟩
  obtain ⟨y, hy, -⟩ := Format.round_le (mul_self_nonneg m) hm h2
  refine ⟨y, svdTolerance_fin hF hy, ?_⟩
  have := Format.round_normal (F := .single) (x := m * m) (y := y) (by simpa [Format.single] using h1) hy
  refine this.trans (le_of_eq ?_)
  norm_num [Format.single]

/-- **C127**: a positive precision of at most `2⁻⁷⁵` asks `TruncatedSvd` for residuals which are exactly zero, in double
precision as well: the square underflows. -/
theorem C127_underflow (hF : F.Wide) (s : Bool) {m : ℝ} (h0 : 0 ≤ m) (h1 : m ≤ (2 : ℝ) ^ (-75 : ℤ)) :
    (svdTolerance (fin s m) : Flt (Rounding.ieee F)) = 0 := by
  refine svdTolerance_fin hF (Format.round_tiny (mul_self_nonneg m) ?_)
  calc m * m ≤ (2 : ℝ) ^ (-75 : ℤ) * (2 : ℝ) ^ (-75 : ℤ) := mul_self_le_mul_self h0 h1
    _ = 2 ^ (-149 : ℤ) / 2 := by norm_num

/-- No float exceeds a NaN or plus infinity. -/
theorem not_above {R : Rounding} {p : Flt R} (hp : p = .nan ∨ p = .inf false) (x : Flt R) : NdFloat.lt p x = false := by
  show Flt.lt p x = false
  rcases hp with rfl | rfl <;> cases x <;> simp [Flt.lt]

/-- **C127**: a precision of at least `2⁶⁴`, infinite, or NaN makes `TruncatedSvd` return the first Ritz pairs of the random
start block, and `TruncatedEig` for a NaN or an infinity. -/
theorem C127_overflow (p : Flt Rounding.binary32)
    (hp : p = .nan ∨ (∃ s, p = .inf s) ∨ ∃ s m, p = .fin s m ∧ (2 : ℝ) ^ (64 : ℤ) ≤ m) :
    (∀ (eig : EigSolver (Flt (Rounding.ieee F))) (S : RandomSource (Flt (Rounding.ieee F)) ρ)
      (t : TruncatedSvd (Flt (Rounding.ieee F)) ρ) (num : Nat) (out : TruncatedSvdResult (Flt (Rounding.ieee F))),
      1 ≤ num → t.decompose32 eig S p num = .ok out → ∃ it,
        lobpcgRun eig { t.params with tol := svdTolerance p } (S.random (min t.problem.nr t.problem.nc) num t.rng).1
          t.maxiter = .ok (.ok it.pairs, [it]) ∧ out.eigvals = it.pairs.eigvals ∧ out.eigvecs = it.pairs.eigvecs) ∧
    ∀ (eig : EigSolver (Flt (Rounding.ieee F))) (S : RandomSource (Flt (Rounding.ieee F)) ρ)
      (t t' : TruncatedEig (Flt (Rounding.ieee F)) ρ) (num : Nat) (b : Lobpcg (Flt (Rounding.ieee F))),
      (p = .nan ∨ p = .inf false) → 1 ≤ num → t.decompose32 eig S p num = .ok (.ok b, t') → ∃ it,
        lobpcgRun eig { t.params with tol := eigTolerance p } (S.random t.problem.nr num t.rng).1
          t.maxiter = .ok (.ok it.pairs, [it]) ∧ b = it.pairs := by
  constructor
  · intro eig S t num out hn h
    have htol : (svdTolerance p : Flt (Rounding.ieee F)) = .nan ∨ (svdTolerance p : Flt (Rounding.ieee F)) = .inf false := by
      rcases hp with rfl | ⟨s, rfl⟩ | ⟨s, m, rfl, hm⟩
      · exact .inl rfl
      · right
        show Flt.cast (.inf (s != s)) = _
        rw [bne_self_eq_false]
        rfl
      · right
        unfold svdTolerance
        rw [sq_single]
        have : (Flt.round false (m * m) : Flt Rounding.binary32) = inf false := by
          unfold Flt.round
          rw [show Rounding.binary32.rnd (m * m) = none from Format.round_huge (F := .single) (by
            show (2 : ℝ) ^ (128 : ℤ) ≤ _
            calc (2 : ℝ) ^ (128 : ℤ) = 2 ^ (64 : ℤ) * 2 ^ (64 : ℤ) := by norm_num
              _ ≤ m * m := mul_self_le_mul_self (by positivity) hm)]
        rw [this]
        rfl
    unfold TruncatedSvd.decompose32 at h
    rw [if_neg (by omega)] at h
    simp only [bind_eq_ok] at h
    obtain ⟨⟨res, hist⟩, h1, h2⟩ := h
    rcases C127_immediate _ _ _ (not_above htol) _ h1 with ⟨e, rfl⟩ | ⟨it, rfl, rfl⟩
    · cases h2
    · simp only at h2
      injection h2 with h2
      exact ⟨it, h1, by rw [← h2], by rw [← h2]⟩
  · intro eig S t t' num b hp' hn h
    have htol : (eigTolerance p : Flt (Rounding.ieee F)) = .nan ∨ (eigTolerance p : Flt (Rounding.ieee F)) = .inf false := by
      rcases hp' with rfl | rfl
      · exact .inl rfl
      · exact .inr rfl
    unfold TruncatedEig.decompose32 at h
    rw [if_neg (by omega)] at h
    simp only [bind_eq_ok] at h
    obtain ⟨⟨res, hist⟩, h1, h2⟩ := h
    simp only at h2
    injection h2 with h2
    simp only [Prod.mk.injEq] at h2
    obtain ⟨rfl, -⟩ := h2
    rcases C127_immediate _ _ _ (not_above htol) _ h1 with ⟨e, h3⟩ | ⟨it, rfl, h3⟩
    · cases h3
    · injection h3 with h3
      subst h3
      exact ⟨it, h1, rfl⟩

/-- The settings matter: `strict_run` visits two iterates, with no iterations to spare, and the run with one iteration less
visits the first of them. -/
example : ∃ b it0 it1 res,
    lobpcgRun exactEig strictParams (ofRows 2 1 [[1], [1]]) 1 = .ok (.ok b, [it0, it1]) ∧
    lobpcgRun exactEig strictParams (ofRows 2 1 [[1], [1]]) 0 = .ok (res, [it0]) ∧
    ∃ res' l, lobpcgRun exactEig { strictParams with tol := 100 } (ofRows 2 1 [[1], [1]]) 1 = .ok (res', l) ∧
      l.map Iterate.pairs <+: [it0.pairs, it1.pairs] := by
  obtain ⟨b, it0, it1, h, hc⟩ := strict_run
  obtain ⟨res, l, h1, h2, -⟩ := C127_iterations exactEig strictParams (ofRows 2 1 [[1], [1]]) (Nat.zero_le 1) h
  obtain ⟨res', l', k1, k2, -⟩ := C127_tolerance exactEig { strictParams with tol := 100 } (ofRows 2 1 [[1], [1]]) le_rfl
    strictParams.tol (fun x hx => by
      rw [real_lt, decide_eq_true_eq] at hx ⊢
      refine lt_trans ?_ hx
      norm_num [strictParams]) le_rfl h
  exact ⟨b, it0, it1, res, h, by rw [h1, h2]; rfl, res', l', k1, k2⟩

/-- `2⁻⁷⁵` is a positive number of `f32`. -/
example : IsFloat .single (fin false ((2 : ℝ) ^ (-75 : ℤ)) : Flt Rounding.binary32) ∧
    (svdTolerance (fin false ((2 : ℝ) ^ (-75 : ℤ))) : Flt Rounding.binary64) = 0 := by
  refine ⟨⟨1, -75, by norm_num [Format.single], by norm_num [Format.single], by norm_num [Format.single], by norm_num⟩, ?_⟩
  exact C127_underflow (F := .double) Format.double_wide false (by positivity) le_rfl

/-- NaN and infinity are tolerances as in C127_immediate. -/
example : ∀ p ∈ [(.nan : Flt Rounding.binary64), .inf false], ∀ x, NdFloat.lt p x = false := by
  intro p hp x
  exact not_above (by simpa using hp) x

end LinfaLinalg
