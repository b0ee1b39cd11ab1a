import Verif.Props.Eigh
import Verif.Props.Svd
import Verif.Props.Sort
import Verif.Proofs.NaNSvd

/-! # C32, C39: NaN, infinities and overflow

`Flt R` is an IEEE-like scalar type with NaN, infinities and signed zeros and an arbitrary rounding `R`
of magnitudes; `Rounding.binary64` is a concrete one. -/

namespace LinfaLinalg

/-- The comparison of IEEE-like scalars is lawful in the sense of the sorting theorems C33 and C40. -/
instance {R : Rounding} : LawfulLe (Flt R) where
  trans a b c h1 h2 := by
    change Flt.le a b = true at h1
    change Flt.le b c = true at h2
    change Flt.le a c = true
    cases a <;> cases b <;> cases c <;> simp only [Flt.le, decide_eq_true_eq] at h1 h2 ⊢ <;>
      first
        | exact le_trans h1 h2
        | (simp_all; done)
        | (rename_i s t u; revert s t u; decide)
        | contradiction
  total a b h1 h2 := by
    change Flt.le a a = true at h1
    change Flt.le b b = true at h2
    change Flt.le a b = true ∨ Flt.le b a = true
    cases a <;> cases b <;> simp only [Flt.le, decide_eq_true_eq] at h1 h2 ⊢ <;>
      first
        | exact le_total _ _
        | contradiction
        | (rename_i s t; cases s <;> cases t <;> simp; done)
        | (rename_i s t u; first | (cases s <;> simp; done) | (cases t <;> simp; done))

/-- C32: the `unwrap` of the `2 × 2` eigenvalues never panics, and neither does anything else in
`eigh` and `eigvalsh`: on IEEE-like scalars, whatever the matrix contains (NaN, infinities, values whose
sums overflow, a matrix that is not symmetric), every failure is the returned `NotSquare` error or the
loop is still running. -/
theorem C32_eigh_no_panic {R : Rounding} (fuel : Nat) (a : Arr2 (Flt R)) (f : Fail)
    (h : eigh fuel a = .error f ∨ eigvalsh fuel a = .error f) :
    f = .err (.notSquare a.nr a.nc) ∧ a.nr ≠ a.nc ∨ f = .fuel := by
  have h' : eigh fuel a = .error f := by
    rcases h with h | h
    · exact h
    · exact ((C27_eigvalsh_eq_eigh fuel a).2.1 f).1 h
  obtain ⟨h1, -, h3⟩ := C31_eigh_shapes fuel a
  by_cases hs : a.nr = a.nc
  · right
    have := h3 hs
    rw [h'] at this
    cases f with
    | fuel => rfl
    | panic =>
      obtain ⟨x, o, y, hlt, hn⟩ := this
      exact absurd hn (Flt.safe2x2 R.eps_pos x o y hlt)
    | err e => exact this.elim
    | oob => exact this.elim
  · left
    rw [h1 hs] at h'
    cases h'
    exact ⟨rfl, hs⟩

/-- … in particular the eigenvalue computation itself succeeds on every block that the deflation test
leaves, even when its entries overflow. -/
theorem C32_block_eigvals {R : Rounding} (a o b : Flt R)
    (h : NdFloat.lt (NdFloat.epsilon * (NdFloat.abs b + NdFloat.abs a)) (NdFloat.abs o) = true) :
    ∃ l, compute2x2Eigvals a o o b = some l :=
  Option.ne_none_iff_exists'.1 (Flt.safe2x2 R.eps_pos a o b h)

/-- Such blocks exist: an infinite off-diagonal entry beside finite diagonal entries. -/
example : NdFloat.lt (NdFloat.epsilon * (NdFloat.abs (Flt.fin true 3) + NdFloat.abs (Flt.fin false 2)))
    (NdFloat.abs (Flt.inf true : Flt Rounding.exact)) = true := by
  show Flt.lt (Flt.mul (Flt.fin false _) (Flt.add (Flt.fin false 3) (Flt.fin false 2)))
    (Flt.inf false) = true
  simp only [Flt.add, Flt.ofReal, Flt.val, Flt.sgn, Bool.false_eq_true, if_false]
  rw [if_neg (by norm_num)]
  rfl

/-- The unwrap does panic when the deflation test does not protect it: the block of NaNs. -/
example {R : Rounding} : compute2x2Eigvals (Flt.nan : Flt R) .nan .nan .nan = none := by
  unfold compute2x2Eigvals
  simp only
  rw [if_neg]
  have h : ((Flt.nan : Flt R) * .nan + (Flt.nan - .nan) * NdFloat.ofRat (1 / 2) *
    ((Flt.nan - .nan) * NdFloat.ofRat (1 / 2))) = .nan := rfl
  rw [h, Flt.nanLike.le_r rfl]
  simp

/-- C39 is false: with IEEE-like arithmetic `svd` never returns on a matrix with at least three rows and
columns and a NaN in its first column (in its first row, if it has more columns than rows), whatever
else it contains and whichever factors are requested. -/
theorem C39_svd_nan_forever {R : Rounding} (a : Arr2 (Flt R)) (cu cv : Bool)
    (hd : 3 ≤ min a.nr a.nc)
    (h : a.nc ≤ a.nr ∧ (∃ r, r < a.nr ∧ a.get r 0 = .nan) ∨
      a.nr < a.nc ∧ ∃ c, c < a.nc ∧ a.get 0 c = .nan) (fuel : Nat) :
    svd fuel a cu cv = .error .fuel :=
  Flt.nanLike.svd_forever fuel a cu cv hd h

/-- C39, the negation of the claim for IEEE binary64. -/
theorem C39_svd_terminates_false :
    ¬ ∀ a : Arr2 (Flt Rounding.binary64), ∃ fuel,
      (∃ r, svd fuel a true true = .ok r) ∨ ∃ e, svd fuel a true true = .error (.err e) := by
  intro h
  obtain ⟨fuel, hr⟩ := h ⟨3, 3, fun i j => if i = 0 ∧ j = 0 then .nan else 1⟩
  have := C39_svd_nan_forever ⟨3, 3, fun i j => if i = 0 ∧ j = 0 then .nan else (1 : Flt Rounding.binary64)⟩
    true true (by simp) (Or.inl ⟨le_rfl, 0, by simp, by simp⟩) fuel
  rw [this] at hr
  rcases hr with ⟨r, hr⟩ | ⟨e, hr⟩ <;> cases hr

end LinfaLinalg
