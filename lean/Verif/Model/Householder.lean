import Verif.Model.Basic

/-! # Model of `/repo/src/reflection.rs` and `/repo/src/householder.rs` -/

namespace LinfaLinalg

variable {α : Type} [Zero α] [One α] [Add α] [Sub α] [Mul α] [Div α] [Neg α] [NdFloat α]

/-- `Result::unwrap`: a returned error becomes a panic. -/
def unwrapM {β : Type} (m : M β) : M β :=
  match m with
  | .ok b => .ok b
  | .error (.err _) => .error .panic
  | .error f => .error f

/-- `Reflection::reflect_cols`, `/repo/src/reflection.rs:26-32`; returns the modified `rhs`. -/
def reflectCols (axis : Arr1 α) (bias : α) (rhs : Arr2 α) : M (Arr2 α) :=
  forRange 0 rhs.nc rhs fun i rhs => do
    let col ← rhs.colSlice 0 rhs.nr i
    let dot ← axis.dot col
    let factor := (dot - bias) * NdFloat.ofRat (-2)
    let col ← col.scaledAdd factor axis
    .ok (rhs.putCol 0 i col)

/-- `Reflection::reflect_rows`, `/repo/src/reflection.rs:35-37`. -/
def reflectRows (axis : Arr1 α) (bias : α) (lhs : Arr2 α) : M (Arr2 α) := do
  let r ← reflectCols axis bias lhs.t
  .ok r.t

/-- `reflection_axis_mut`, `/repo/src/householder.rs:9-28`; returns the modified column and the
result. -/
def reflectionAxisMut (col : Arr1 α) : M (Arr1 α × Option α) := do
  let normSq ← col.dot col
  let norm := NdFloat.sqrt normSq
  let first ← col.idx 0
  let signedNorm := NdFloat.signum first * norm
  let col ← col.idxSet 0 (first + signedNorm)
  let newNormSq := (normSq + NdFloat.abs first * norm) * NdFloat.ofRat 2
  if !NdFloat.isZero newNormSq then
    .ok (col.map fun x => x / NdFloat.sqrt newNormSq, some (-signedNorm))
  else
    .ok (col, none)

/-- `clear_column`, `/repo/src/householder.rs:34-51`; returns the modified matrix and the result. -/
def clearColumn (a : Arr2 α) (icol shift : Nat) : M (Arr2 α × α) := do
  let axis ← a.colSlice (icol + shift) a.nr icol
  let (axis, reflNorm) ← reflectionAxisMut axis
  let a := a.putCol (icol + shift) icol axis
  match reflNorm with
  | some reflNorm => do
    let sign := NdFloat.signum reflNorm
    let rows ← a.slice (icol + shift) a.nr (icol + 1) a.nc
    let rows ← reflectCols axis 0 rows
    let rows := rows.map fun x => x * sign
    .ok (a.put (icol + shift) (icol + 1) rows, reflNorm)
  | none => .ok (a, 0)

/-- `clear_row`, `/repo/src/householder.rs:57-63`. -/
def clearRow (a : Arr2 α) (irow shift : Nat) : M (Arr2 α × α) := do
  let (a, r) ← clearColumn a.t irow shift
  .ok (a.t, r)

/-- `assemble_q`, `/repo/src/householder.rs:68-93`. `dim - shift` panics on underflow (overflow
checks; without them the loop would then index out of range and panic as well). -/
def assembleQ (m : Arr2 α) (shift : Nat) (diagFn : Nat → M α) : M (Arr2 α) :=
  let dim := min m.nr m.nc
  if dim < shift then .error .panic else
  forRev 0 (dim - shift) (Arr2.eye m.nr dim) fun i res => do
    let axis ← m.colSlice (i + shift) m.nr i
    let rows ← res.slice (i + shift) res.nr i res.nc
    let rows ← reflectCols axis 0 rows
    let d ← diagFn i
    let rows := rows.map fun x => x * NdFloat.signum d
    .ok (res.put (i + shift) i rows)

end LinfaLinalg
