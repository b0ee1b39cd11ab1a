import Verif.Model.Householder
import Verif.Model.Triangular

/-! # Model of `/repo/src/qr.rs` -/

namespace LinfaLinalg

variable {α : Type} [Zero α] [One α] [Add α] [Sub α] [Mul α] [Div α] [Neg α] [NdFloat α]

/-- `struct QRDecomp`, `/repo/src/qr.rs:68-73`. -/
structure QRDecomp (α : Type) where
  qr : Arr2 α
  diag : Arr1 α

/-- `qr_into`, `/repo/src/qr.rs:32-44`, and `qr`, `/repo/src/qr.rs:60-62` (on a copy). -/
def qrInto (a : Arr2 α) : M (QRDecomp α) :=
  if a.nr < a.nc then throwErr (.notThin a.nr a.nc)
  else do
    let (a, diag) ← forRange 0 a.nc (a, (Arr1.zeros a.nc : Arr1 α)) fun i (a, diag) => do
      let (a, d) ← clearColumn a i 0
      let diag ← diag.idxSet i d
      .ok (a, diag)
    .ok ⟨a, diag⟩

/-- `QRDecomp::generate_q`, `/repo/src/qr.rs:86-88`. -/
def QRDecomp.generateQ (q : QRDecomp α) : M (Arr2 α) := assembleQ q.qr 0 fun i => q.diag.idx i

/-- `a.diag_mut().assign(&d)`; panics when the lengths differ
(simplification: no broadcasting of a one-element `d`). -/
def Arr2.assignDiag (a : Arr2 α) (d : Arr1 α) : M (Arr2 α) :=
  if min a.nr a.nc = d.len then
    .ok ⟨a.nr, a.nc, fun i j => if i = j ∧ i < d.len then d.get i else a.get i j⟩
  else .error .panic

/-- `QRDecomp::into_r`, `/repo/src/qr.rs:91-98`. -/
def QRDecomp.intoR (q : QRDecomp α) : M (Arr2 α) := do
  let ncols := q.qr.nc
  let r ← q.qr.slice 0 ncols 0 ncols
  let r ← unwrapM (triangularInplace r .upper)
  r.assignDiag (q.diag.map NdFloat.abs)

/-- `QRDecomp::into_decomp`, `/repo/src/qr.rs:101-104`. -/
def QRDecomp.intoDecomp (q : QRDecomp α) : M (Arr2 α × Arr2 α) := do
  let qm ← q.generateQ
  let r ← q.intoR
  .ok (qm, r)

/-- `QRDecomp::qt_mul`, `/repo/src/qr.rs:110-120`; returns the modified `b`. -/
def QRDecomp.qtMul (q : QRDecomp α) (b : Arr2 α) : M (Arr2 α) :=
  forRange 0 q.qr.nc b fun i b => do
    let axis ← q.qr.colSlice i q.qr.nr i
    let rows ← b.slice i b.nr 0 b.nc
    let rows ← reflectCols axis 0 rows
    let d ← q.diag.idx i
    let rows := rows.map fun x => x * NdFloat.signum d
    .ok (b.put i 0 rows)

/-- `QRDecomp::is_invertible`, `/repo/src/qr.rs:194-197`. -/
def QRDecomp.isInvertible (q : QRDecomp α) : Bool := q.diag.toList.all fun f => !NdFloat.isZero f

/-- The closure `|i| self.diag.at(i).abs()` of `solve_into` and `solve_tr_into`. -/
def QRDecomp.absDiag (q : QRDecomp α) (i : Nat) : M α := do
  let d ← q.diag.at i
  .ok (NdFloat.abs d)

/-- `QRDecomp::solve_into`, `solve`, `/repo/src/qr.rs:124-152, 184-186`. -/
def QRDecomp.solveInto (q : QRDecomp α) (b : Arr2 α) : M (Arr2 α) :=
  if q.qr.nr ≠ b.nr then throwErr (.wrongRows q.qr.nr b.nr)
  else if !q.isInvertible then throwErr .nonInvertible
  else do
    let b ← q.qtMul b
    let ncols := q.qr.nc
    let b ← b.slice 0 ncols 0 b.nc
    let r ← q.qr.slice 0 ncols 0 ncols
    solveTriangularSystem r b .upper q.absDiag

/-- `QRDecomp::solve_tr_into`, `solve_tr`, `/repo/src/qr.rs:156-181, 189-191`. -/
def QRDecomp.solveTrInto (q : QRDecomp α) (b : Arr2 α) : M (Arr2 α) :=
  if q.qr.nc ≠ b.nr then throwErr (.wrongRows q.qr.nc b.nr)
  else if !q.isInvertible then throwErr .nonInvertible
  else do
    let ncols := q.qr.nc
    let r ← q.qr.slice 0 ncols 0 ncols
    let b ← solveTriangularSystem r.t b .lower q.absDiag
    let qm ← q.generateQ
    qm.dot b

/-- `QRDecomp::inverse`, `/repo/src/qr.rs:200-203`. -/
def QRDecomp.inverse (q : QRDecomp α) : M (Arr2 α) := do
  let _ ← checkSquare q.qr
  q.solveInto (Arr2.eye q.diag.len q.diag.len)

/-- `least_squares_into`, `least_squares`, `/repo/src/qr.rs:219-228, 245-247`. -/
def leastSquares (a b : Arr2 α) : M (Arr2 α) :=
  if a.nr ≥ a.nc then do
    let q ← qrInto a
    q.solveInto b
  else do
    let q ← qrInto a.t
    q.solveTrInto b

end LinfaLinalg
