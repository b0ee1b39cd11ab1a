import Verif.Props.Svd
import Verif.Proofs.SvdTranspose
import Verif.Spec.Ieee

/-! # C99: the decomposition of the transposed matrix

`svd.rs` has no branch that transposes a wide matrix: the wide case runs through `upper_diag = false`
in `bidiagonal.rs`, through the exchanged rotations of `cancel_horizontal_off_diagonal_element`, of the
bulge chase and of the 2×2 block. The theorems below say that all those branches mirror each other, in
every arithmetic. -/

set_option linter.unusedSectionVars false

namespace LinfaLinalg

open Matrix

section generic
variable {α : Type} [Zero α] [One α] [Add α] [Sub α] [Mul α] [Div α] [Neg α] [NdFloat α]

/-- The entries of column `i` of `U` are those of row `i` of `W`, passed through `f`. -/
def ColIsRow (f : α → α) (i : Nat) (U W : Arr2 α) : Prop :=
  U.nr = W.nc ∧ ∀ r, U.get r i = f (W.get i r)

/-- C99: in every arithmetic with `-(-x) = x` in which the largest absolute value does not depend on
the order of the entries, `svd` of the transpose of a matrix that is not square fails as `svd` of the
matrix does, or both return the same singular values; and the columns of the left factor of each run are
the rows of the right factor of the other run, except that a column whose value had its sign changed
is multiplied by `-0` in both. -/
theorem C99_svd_transpose (hneg : ∀ x : α, - -x = x) (a : Arr2 α)
    (hmax : ∀ x y z : α, NdFloat.max (NdFloat.max z (NdFloat.abs x)) (NdFloat.abs y) =
      NdFloat.max (NdFloat.max z (NdFloat.abs y)) (NdFloat.abs x))
    (hne : a.nr ≠ a.nc) (fuel : Nat) (cu cv : Bool) :
    (∀ f, svd fuel a cu cv = .error f → svd fuel a.t cv cu = .error f) ∧
    ∀ u s vt, svd fuel a cu cv = .ok (u, s, vt) → ∃ u' vt', svd fuel a.t cv cu = .ok (u', s, vt') ∧
      u'.isSome = vt.isSome ∧ vt'.isSome = u.isSome ∧
      ∀ i, ∃ f : α → α, (f = id ∨ f = fun x => x * -0) ∧
        (∀ U ∈ u, ∀ W ∈ vt', ColIsRow f i U W) ∧ ∀ U ∈ u', ∀ W ∈ vt, ColIsRow f i U W := by
  have h := relM_svdGo_t hneg a (amax_t a hmax) hne fuel cu cv (NdFloat.epsilon * NdFloat.ofRat 5)
  unfold svd
  constructor
  · intro f hf
    rw [hf] at h
    cases h' : svdGo fuel a.t cv cu (NdFloat.epsilon * NdFloat.ofRat 5) with
    | ok q => rw [h'] at h; exact h.elim
    | error e => rw [h'] at h; exact congrArg _ h.symm
  · intro u s vt hok
    rw [hok] at h
    cases h' : svdGo fuel a.t cv cu (NdFloat.epsilon * NdFloat.ofRat 5) with
    | error e => rw [h'] at h; exact h.elim
    | ok q =>
      rw [h'] at h
      obtain ⟨u', s', vt'⟩ := q
      obtain ⟨rfl, h1, h2, h3⟩ := h
      exact ⟨u', vt', rfl, h2, h1, h3⟩

end generic

/-- C99 for floating-point numbers: nothing has to be assumed. -/
theorem C99_svd_transpose_ieee {R : Rounding} (a : Arr2 (Flt R)) (hne : a.nr ≠ a.nc) (fuel : Nat) (cu cv : Bool) :
    (∀ f, svd fuel a cu cv = .error f → svd fuel a.t cv cu = .error f) ∧
    ∀ u s vt, svd fuel a cu cv = .ok (u, s, vt) → ∃ u' vt', svd fuel a.t cv cu = .ok (u', s, vt') ∧
      u'.isSome = vt.isSome ∧ vt'.isSome = u.isSome ∧
      ∀ i, ∃ f : Flt R → Flt R, (f = id ∨ f = fun x => x * -0) ∧
        (∀ U ∈ u, ∀ W ∈ vt', ColIsRow f i U W) ∧ ∀ U ∈ u', ∀ W ∈ vt, ColIsRow f i U W := by
  refine C99_svd_transpose ?_ a ?_ hne fuel cu cv
  · intro x
    change Flt.neg (Flt.neg x) = x
    cases x <;> simp [Flt.neg]
  · intro x y z
    change Flt.max (Flt.max z (Flt.abs x)) (Flt.abs y) = Flt.max (Flt.max z (Flt.abs y)) (Flt.abs x)
    cases z with
    | nan =>
      rcases x with _ | s | ⟨s, m⟩ <;> rcases y with _ | t | ⟨t, n⟩ <;> simp [Flt.max, Flt.abs, Flt.lt]
      split_ifs <;> simp_all [Flt.val, Flt.sgn] <;> linarith
    | inf b =>
      cases b <;> rcases x with _ | s | ⟨s, m⟩ <;> rcases y with _ | t | ⟨t, n⟩ <;> simp [Flt.max, Flt.abs, Flt.lt]
      split_ifs <;> simp_all [Flt.val, Flt.sgn] <;> linarith
    | fin b k =>
      rcases x with _ | s | ⟨s, m⟩ <;> rcases y with _ | t | ⟨t, n⟩ <;> simp [Flt.max, Flt.abs, Flt.lt]
      case fin.fin =>
        have hv : ∀ m : ℝ, Flt.val false m = m := fun m => by simp [Flt.val, Flt.sgn]
        generalize hk : Flt.val b k = v
        by_cases h1 : v < m <;> by_cases h2 : v < n <;> by_cases h3 : m < n <;> by_cases h4 : n < m <;>
          simp [hv, hk, h1, h2, h3, h4] <;> linarith
      all_goals split_ifs <;> rfl

/-- C99 over the reals: the factors of the transpose are the transposed factors, exchanged. -/
theorem C99_svd_transpose_real {m n : Nat} (fuel : Nat) (a : Arr2 ℝ) (ha : HasShape a m n) (hne : m ≠ n)
    (U V : Arr2 ℝ) (s : Arr1 ℝ) (h : svd fuel a true true = .ok (some U, s, some V)) :
    ∃ U' V', svd fuel a.t true true = .ok (some U', s, some V') ∧
      toMat n (min m n) U' = (toMat (min m n) n V)ᵀ ∧ toMat (min m n) m V' = (toMat m (min m n) U)ᵀ := by
  obtain ⟨u', vt', h1, h2, h3, h4⟩ := (C99_svd_transpose (fun x => neg_neg x) a
    (fun x y z => by
      change max (max z |x|) |y| = max (max z |y|) |x|
      rw [max_assoc, max_comm |x|, ← max_assoc]) (by rw [ha.1, ha.2]; exact hne) fuel true true).2 _ _ _ h
  have hm : m ≠ 0 ∧ n ≠ 0 := by
    by_contra h0
    unfold svd svdGo at h
    rw [if_pos (by rw [ha.1, ha.2]; tauto)] at h
    cases h
  obtain ⟨U₁, V₁, e1, e2, -, -, -, hU, -⟩ := (C34_svd_orthonormal fuel a ha hm.1 hm.2).2 _ _ _ h
  obtain rfl := Option.some.inj e1
  obtain rfl := Option.some.inj e2
  obtain ⟨U', rfl⟩ := Option.isSome_iff_exists.1 (h2.trans rfl)
  obtain ⟨V', rfl⟩ := Option.isSome_iff_exists.1 (h3.trans rfl)
  have key : ∀ k, k < min m n → (∀ r, U.get r k = V'.get k r) ∧ ∀ r, U'.get r k = V.get k r := by
    intro k hk
    obtain ⟨f, hf, g1, g2⟩ := h4 k
    rcases hf with rfl | rfl
    · exact ⟨(g1 _ rfl _ rfl).2, (g2 _ rfl _ rfl).2⟩
    · exfalso
      have := congrFun (congrFun hU ⟨k, hk⟩) ⟨k, hk⟩
      rw [Matrix.mul_apply, Finset.sum_eq_zero, Matrix.one_apply_eq] at this
      · exact zero_ne_one this
      · intro r _
        have := (g1 _ rfl _ rfl).2 r
        simp [toMat, Matrix.transpose_apply, this]
  refine ⟨U', V', h1, ?_, ?_⟩
  · ext i k
    exact (key k k.2).2 i
  · ext k j
    exact ((key k k.2).1 j).symm

/-- A tall matrix whose decomposition returns. -/
def svdTall : Arr2 ℝ := ofRows 3 2 [[1, 2], [0, 1], [3, 0]]

/-- The hypotheses are met by a 3×2 matrix, so its decomposition and that of its transpose are tied. -/
example : ∃ U s V U' V', svd 1 svdTall true true = .ok (some U, s, some V) ∧
    svd 1 svdTall.t true true = .ok (some U', s, some V') ∧ toMat 2 2 U' = (toMat 2 2 V)ᵀ := by
  obtain ⟨⟨u, s, vt⟩, h⟩ := svdGo_small svdTall true true (NdFloat.epsilon * NdFloat.ofRat 5) 0
    (by simp [svdTall, ofRows]) (by simp [svdTall, ofRows]) (by simp [svdTall, ofRows])
  obtain ⟨U, V, rfl, rfl, -⟩ := (C34_svd_orthonormal (m := 3) (n := 2) 1 svdTall ⟨rfl, rfl⟩ (by simp) (by simp)).2 _ _ _ h
  obtain ⟨U', V', h1, h2, -⟩ := C99_svd_transpose_real (m := 3) (n := 2) 1 svdTall ⟨rfl, rfl⟩ (by simp) U V s h
  exact ⟨U, s, V, U', V', h, h1, h2⟩

/-- The hypotheses of the floating-point statement are met by a matrix with a NaN entry. -/
example : ∃ r, svd 1 (⟨1, 2, fun _ j => if j = 0 then .nan else 1⟩ : Arr2 (Flt Rounding.exact)) true true = .ok r :=
  svdGo_small _ true true _ 0 (by simp) (by simp) (by simp)

end LinfaLinalg
