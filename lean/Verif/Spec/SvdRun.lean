import Verif.Model.Svd
import Verif.Spec.Rounded

/-! # Runs of the main loop of `svd` -/

set_option linter.unusedSectionVars false

namespace LinfaLinalg

variable {α : Type} [Zero α] [One α] [Add α] [Sub α] [Mul α] [Div α] [Neg α] [NdFloat α]

/-- `st` is the state in which `svd` enters its main loop on the matrix `a`, `/repo/src/svd.rs:17-54`: the diagonals of
the bidiagonal form of the scaled matrix, the requested factors, and the block found by `delimit_subproblem`. -/
def SvdStart (a : Arr2 α) (cu cv : Bool) (eps : α) (st : SvdState α) : Prop :=
  ∃ b U Vt, bidiagonal (a.scaleDown a.amax) = .ok b ∧ b.generateU = .ok U ∧ b.generateVt = .ok Vt ∧
    svdDelimit (decide (a.nc ≤ a.nr)) (min a.nr a.nc - 1) eps ⟨b.intoDiagonals.1, b.intoDiagonals.2,
      if cu then some U else none, if cv then some Vt else none⟩ = .ok (st.s, st.start, st.end)

/-- `st` is the state of `svd` on `a` at the top of some iteration of its main loop. -/
inductive SvdVisits (a : Arr2 α) (cu cv : Bool) (eps : α) : SvdState α → Prop
  | start {st} : SvdStart a cu cv eps st → SvdVisits a cu cv eps st
  | step {st st'} : SvdVisits a cu cv eps st → st.end ≠ st.start →
      svdStep (decide (a.nc ≤ a.nr)) cu cv eps st = .ok st' → SvdVisits a cu cv eps st'

/-- A `2 × 2` block `[[a, f], [0, g]]` whose condition number is at most about `K` and on which the first rotation is
well determined: `f` is not tiny beside `a`, or `g` is smaller than `a`. -/
def UptrigGood (K a f g : ℝ) : Prop :=
  a * g ≠ 0 ∧ a ^ 2 + f ^ 2 + g ^ 2 ≤ K * |a * g| ∧ (|a| ≤ K * |f| ∨ a ^ 2 ≤ K * (a ^ 2 - g ^ 2))

/-- When the current block is a `2 × 2` block, it is `UptrigGood K`. -/
def SvdBlockGood {R : StdModel} (K : Nat) (st : SvdState (Rnd R)) : Prop :=
  st.start + 1 = st.end →
    UptrigGood K (st.s.diag.get st.start).v (st.s.off.get st.start).v (st.s.diag.get (st.start + 1)).v

end LinfaLinalg
