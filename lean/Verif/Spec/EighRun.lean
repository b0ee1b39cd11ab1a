import Verif.Model.Eigh
import Verif.Spec.Rounded

/-! # Runs of the main loop of `symmetric_eig` -/

set_option linter.unusedSectionVars false

namespace LinfaLinalg

variable {α : Type} [Zero α] [One α] [Add α] [Sub α] [Mul α] [Div α] [Neg α] [NdFloat α]

/-- `st` is the state in which `symmetric_eig` enters its main loop on the matrix `a`, `/repo/src/eigh.rs:18-45`: the
diagonals of the tridiagonal form of the scaled matrix, the matrix `Q` of the reduction when the vectors are wanted, and
the block found by `delimit_subproblem`. -/
def EigStart (a : Arr2 α) (ev : Bool) (eps : α) (st : EigState α) : Prop :=
  ∃ t, symTridiagonal (a.scaleDown a.amax) = .ok t ∧ st.q.isSome = ev ∧ (∀ x, st.q = some x → t.generateQ = .ok x) ∧
    st.diag = t.intoDiagonals.1 ∧
    delimitSubproblem t.intoDiagonals.1 t.intoDiagonals.2 (a.nr - 1) eps = .ok (st.off, st.start, st.end)

/-- `st` is the state of `symmetric_eig` on `a` at the top of some iteration of its main loop. -/
inductive EigVisits (a : Arr2 α) (ev : Bool) (eps : α) : EigState α → Prop
  | start {st} : EigStart a ev eps st → EigVisits a ev eps st
  | step {st st'} : EigVisits a ev eps st → st.end ≠ st.start → eigStep eps st = .ok st' → EigVisits a ev eps st'

/-- When the current block is a `2 × 2` block `[[x, o], [o, y]]`, `y` is not above `x` by more than `K |o|`. -/
def BlockGood {R : StdModel} (K : ℝ) (st : EigState (Rnd R)) : Prop :=
  st.start + 1 = st.end →
    (st.diag.get (st.start + 1)).v - (st.diag.get st.start).v ≤ K * |(st.off.get st.start).v|

end LinfaLinalg
